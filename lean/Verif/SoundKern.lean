import Verif.SoundMean

/-!
# Soundness of kernels: the constructions
-/

namespace Stheno

open Matrix

set_option linter.unusedSectionVars false

variable {V : Type} [AddCommGroup V] [Module ℝ V] {S : SO V} {G H A B : RF V}
variable {lm : MId → PId → Option MExpr} {lk : MId → PId → PId → Option KExpr} {n : ℕ} {I : Interp V}

theorem cov_big (hG : G.OK) (hH : H.OK) : Den.Big (cov S G H) := by
  intro x y T _ _ hT
  obtain ⟨vs, ws, h1, h2, rfl⟩ := cov_some S hT
  exact ⟨hG.size _ _ h1, hH.size _ _ h2⟩

theorem zipWith_getD {α β : Type} {f : α → β → V} {vs : List α} {ws : List β} {i : ℕ} (h1 : i < vs.length)
    (h2 : i < ws.length) : (List.zipWith f vs ws).getD i 0 = f vs[i] ws[i] := by
  simp [List.getD_eq_getElem?_getD, List.getElem?_zipWith, List.getElem?_eq_getElem h1,
    List.getElem?_eq_getElem h2]

theorem getD_get {vs : List V} {i : ℕ} (h : i < vs.length) : vs.getD i 0 = vs[i] := by
  simp [List.getD_eq_getElem?_getD, List.getElem?_eq_getElem h]

theorem getD_get_real {vs : List ℝ} {i : ℕ} (h : i < vs.length) : vs.getD i 0 = vs[i] := by
  simp [List.getD_eq_getElem?_getD, List.getElem?_eq_getElem h]

theorem Den.add_of {D E : Den} {x y : Input} {P Q : Mat} (h1 : D x y = some P) (h2 : E x y = some Q)
    (hr : P.r = Q.r) (hc : P.c = Q.c) : D.add E x y = some ⟨P.r, P.c, fun i j => P.e i j + Q.e i j⟩ := by
  simp only [Den.add, h1, h2, Option.bind_eq_bind, Option.bind_some, Mat.add, if_pos (And.intro hr hc)]

theorem Den.mul_of {D E : Den} {x y : Input} {P Q : Mat} (h1 : D x y = some P) (h2 : E x y = some Q)
    (hr : P.r = Q.r) (hc : P.c = Q.c) : D.mul E x y = some ⟨P.r, P.c, fun i j => P.e i j * Q.e i j⟩ := by
  simp only [Den.mul, h1, h2, Option.bind_eq_bind, Option.bind_some, Mat.mul, if_pos (And.intro hr hc)]

/-- Uncorrelated processes. -/
theorem AK.orth (hG : G.OK) (hH : H.OK) (h : S.Orth G H) : AK lm lk n .zero (cov S G H) := by
  refine AK.zeroK (fun x y T _ _ hT i hi j hj => ?_) (cov_big hG hH)
  obtain ⟨vs, ws, h1, h2, rfl⟩ := cov_some S hT
  have hi' : i < vs.length := hi
  have hj' : j < ws.length := hj
  show S.C (vs.getD i 0) (ws.getD j 0) = 0
  rw [getD_get hi', getD_get hj']
  exact h x y vs ws h1 h2 _ (List.getElem_mem hi') _ (List.getElem_mem hj')

theorem SO.Orth.symm (h : S.Orth G H) : S.Orth H G :=
  fun x y vs ws h1 h2 v hv w hw => by rw [S.symm]; exact h y x ws vs h2 h1 w hw v hv

/-- The zero clause, as a property of random functions. -/
theorem AK.orth_of_zero (hG : G.OK) (hH : H.OK) (h : Den.Zero (cov S G H)) : S.Orth G H := by
  intro x y vs ws h1 h2 v hv w hw
  have key : ∀ x vs, G x = some vs → v ∈ vs → ∃ x' vs', x'.IsAtom ∧ G x' = some vs' ∧ v ∈ vs' := by
    intro x
    induction x using Input.atomInd with
    | atom x hx => exact fun vs h hv => ⟨x, vs, hx, h, hv⟩
    | tup xs ih =>
      induction xs with
      | nil => intro vs h hv; rw [hG.nil] at h; cases h; simp at hv
      | cons x xs ih' =>
        intro vs h hv
        obtain ⟨u, u', h1, h2, rfl⟩ := hG.cons h
        rcases List.mem_append.1 hv with hv | hv
        · exact ih x (List.mem_cons_self ..) u h1 hv
        · exact ih' (fun y hy => ih y (List.mem_cons_of_mem _ hy)) u' h2 hv
  have key' : ∀ x ws, H x = some ws → w ∈ ws → ∃ x' ws', x'.IsAtom ∧ H x' = some ws' ∧ w ∈ ws' := by
    intro x
    induction x using Input.atomInd with
    | atom x hx => exact fun vs h hv => ⟨x, vs, hx, h, hv⟩
    | tup xs ih =>
      induction xs with
      | nil => intro vs h hv; rw [hH.nil] at h; cases h; simp at hv
      | cons x xs ih' =>
        intro vs h hv
        obtain ⟨u, u', h1, h2, rfl⟩ := hH.cons h
        rcases List.mem_append.1 hv with hv | hv
        · exact ih x (List.mem_cons_self ..) u h1 hv
        · exact ih' (fun y hy => ih y (List.mem_cons_of_mem _ hy)) u' h2 hv
  obtain ⟨x', vs', hx', hv1, hv2⟩ := key x vs h1 hv
  obtain ⟨y', ws', hy', hw1, hw2⟩ := key' y ws h2 hw
  obtain ⟨i, hi, rfl⟩ := List.getElem_of_mem hv2
  obtain ⟨j, hj, rfl⟩ := List.getElem_of_mem hw2
  have := h x' y' _ hx' hy' (cov_of S hv1 hw1) i hi j hj
  rw [← getD_get hi, ← getD_get hj]
  exact this

/-- Swapping the arguments. -/
theorem AK.revCov (hG : G.OK) (hH : H.OK) {k : KExpr} (h : AK lm lk n k (cov S G H)) :
    AK lm lk n (Stheno.krev k) (cov S H G) := by
  refine (h.krev (cov_big hG hH)).of_sub fun x y T' _ _ hT' => ?_
  obtain ⟨vs, ws, h1, h2, rfl⟩ := cov_some S hT'
  refine ⟨(covMat S ws vs).tr, by simp only [cov_of S h2 h1, Option.map_some], ?_⟩
  rw [covMat_tr]
  exact Mat.Eqv.refl _

/-! ## Sums -/

theorem sum_law {x : Input} (h : G x = do
      let vs ← A x
      let ws ← B x
      zipAdd vs ws) {rs : List V} (hrs : G x = some rs) :
    ∃ vs ws, A x = some vs ∧ B x = some ws ∧ vs.length = ws.length ∧ rs = List.zipWith (· + ·) vs ws := by
  rw [h] at hrs
  obtain ⟨vs, hvs, hu⟩ := bind_some hrs
  obtain ⟨ws, hws, hu⟩ := bind_some hu
  unfold zipAdd at hu
  split at hu
  · next e => cases hu; exact ⟨vs, ws, hvs, hws, e, rfl⟩
  · cases hu

theorem AK.sumLeft (h : ∀ x, x.IsAtom → G x = do
      let vs ← A x
      let ws ← B x
      zipAdd vs ws) {a b : KExpr} (ha : AK lm lk n a (cov S A H)) (hb : AK lm lk n b (cov S B H)) :
    AK lm lk n (Stheno.kadd a b) (cov S G H) := by
  refine (ha.kadd hb).of_sub fun x y T' hx hy hT' => ?_
  obtain ⟨rs, ts, h1, h2, rfl⟩ := cov_some S hT'
  obtain ⟨vs, ws, hvs, hws, hl, rfl⟩ := sum_law (h x hx) h1
  refine ⟨_, Den.add_of (cov_of S hvs h2) (cov_of S hws h2) hl rfl, by simp [covMat, hl], rfl,
    fun i hi j hj => ?_⟩
  have hi' : i < vs.length := by simpa [covMat, hl] using hi
  show S.C (vs.getD i 0) (ts.getD j 0) + S.C (ws.getD i 0) (ts.getD j 0) = S.C _ (ts.getD j 0)
  have hi2 : i < ws.length := hl ▸ hi'
  rw [zipWith_getD hi' hi2, getD_get hi', getD_get hi2, map_add]
  rfl

theorem AK.sum (h : ∀ x, x.IsAtom → G x = do
      let vs ← A x
      let ws ← B x
      zipAdd vs ws) {a b c d : KExpr} (ha : AK lm lk n a (cov S A A)) (hb : AK lm lk n b (cov S B B))
    (hc : AK lm lk n c (cov S A B)) (hd : AK lm lk n d (cov S B A)) :
    AK lm lk n (Stheno.kadd (Stheno.kadd (Stheno.kadd a b) c) d) (cov S G G) := by
  refine (((ha.kadd hb).kadd hc).kadd hd).of_sub fun x y T' hx hy hT' => ?_
  obtain ⟨rs, ts, h1, h2, rfl⟩ := cov_some S hT'
  obtain ⟨vs, ws, hvs, hws, hl, rfl⟩ := sum_law (h x hx) h1
  obtain ⟨vs', ws', hvs', hws', hl', rfl⟩ := sum_law (h y hy) h2
  have e1 := Den.add_of (cov_of S hvs hvs') (cov_of S hws hws') hl hl'
  have e2 := Den.add_of e1 (cov_of S hvs hws') rfl hl'
  have e3 := Den.add_of e2 (cov_of S hws hvs') hl rfl
  refine ⟨_, e3, by simp [covMat, hl], by simp [covMat, hl'], fun i hi j hj => ?_⟩
  have hi' : i < vs.length := by simpa [covMat, hl] using hi
  have hj' : j < vs'.length := by simpa [covMat, hl'] using hj
  show S.C (vs.getD i 0) (vs'.getD j 0) + S.C (ws.getD i 0) (ws'.getD j 0) + S.C (vs.getD i 0) (ws'.getD j 0) +
    S.C (ws.getD i 0) (vs'.getD j 0) = S.C _ _
  have hi2 : i < ws.length := hl ▸ hi'
  have hj2 : j < ws'.length := hl' ▸ hj'
  rw [zipWith_getD hi' hi2, zipWith_getD hj' hj2, getD_get hi', getD_get hi2, getD_get hj', getD_get hj2]
  simp only [map_add, LinearMap.add_apply]
  ring

/-! ## Scaling -/

theorem AK.scaleLeft {c : ℝ} (hA : A.OK) (hH : H.OK) (h : ∀ x, x.IsAtom → G x = (A x).map (·.map (c • ·)))
    {a : KExpr} (ha : AK lm lk n a (cov S A H)) : AK lm lk n (Stheno.kscale c a) (cov S G H) := by
  refine (ha.kscale (cov_big hA hH) c).of_sub fun x y T' hx hy hT' => ?_
  obtain ⟨rs, ts, h1, h2, rfl⟩ := cov_some S hT'
  rw [h x hx] at h1
  obtain ⟨vs, hvs, rfl⟩ := Option.map_eq_some_iff.1 h1
  refine ⟨(covMat S vs ts).smul c, by simp only [cov_of S hvs h2, Option.map_some], by simp [covMat, Mat.smul], rfl, fun i hi j hj => ?_⟩
  have hi' : i < vs.length := by simpa [covMat] using hi
  show c * S.C (vs.getD i 0) (ts.getD j 0) = S.C _ (ts.getD j 0)
  have hi2 : i < (vs.map (c • ·)).length := by simpa using hi'
  rw [getD_get hi', getD_get hi2, List.getElem_map]
  simp

theorem AK.scale {c : ℝ} (hA : A.OK) (h : ∀ x, x.IsAtom → G x = (A x).map (·.map (c • ·)))
    {a : KExpr} (ha : AK lm lk n a (cov S A A)) : AK lm lk n (Stheno.kscale (c ^ 2) a) (cov S G G) := by
  refine (ha.kscale (cov_big hA hA) (c ^ 2)).of_sub fun x y T' hx hy hT' => ?_
  obtain ⟨rs, ts, h1, h2, rfl⟩ := cov_some S hT'
  rw [h x hx] at h1
  rw [h y hy] at h2
  obtain ⟨vs, hvs, rfl⟩ := Option.map_eq_some_iff.1 h1
  obtain ⟨ws, hws, rfl⟩ := Option.map_eq_some_iff.1 h2
  refine ⟨(covMat S vs ws).smul (c ^ 2), by simp only [cov_of S hvs hws, Option.map_some], by simp [covMat, Mat.smul], by simp [covMat, Mat.smul],
    fun i hi j hj => ?_⟩
  have hi' : i < vs.length := by simpa [covMat] using hi
  have hj' : j < ws.length := by simpa [covMat] using hj
  show c ^ 2 * S.C (vs.getD i 0) (ws.getD j 0) = S.C _ _
  have hi2 : i < (vs.map (c • ·)).length := by simpa using hi'
  have hj2 : j < (ws.map (c • ·)).length := by simpa using hj'
  rw [getD_get hi', getD_get hj', getD_get hi2, getD_get hj2, List.getElem_map, List.getElem_map]
  simp only [map_smul, LinearMap.smul_apply, smul_eq_mul]
  ring

/-! ## Products with functions -/

/-- `TensorProductKernel(f, g) * k` -/
theorem AK.tmul (hm : ∀ n' < n, ∀ (m : MId) p a, lm m p = some a → SM lm lk n' a (expect (I.S m) (I.F m p)))
    {f g : Fn} {k : KExpr} {D D' : Den} (hk : AK lm lk n k D) (hbig : D'.Big)
    (h : ∀ x y T', x.IsAtom → y.IsAtom → D' x y = some T' → ∃ us ws T, I.FnVal f x us ∧ I.FnVal g y ws ∧
      D x y = some T ∧ us.length = T'.r ∧ T.r = T'.r ∧ ws.length = T'.c ∧ T.c = T'.c ∧
      ∀ i < T'.r, ∀ j < T'.c, T'.e i j = us.getD i 0 * ws.getD j 0 * T.e i j) :
    AK lm lk n (Stheno.kmul (.tprod f g) k) D' := by
  by_cases hz : k = .zero
  · subst hz
    refine AK.zeroK (fun x y T' hx hy hT' i hi j hj => ?_) hbig
    obtain ⟨us, ws, T, _, _, hT, _, h1, _, h2, he⟩ := h x y T' hx hy hT'
    rw [he i hi j hj, hk.zero rfl x y T hx hy hT i (h1 ▸ hi) j (h2 ▸ hj), mul_zero]
  · have e : Stheno.kmul (.tprod f g) k = KExpr.mul (.tprod f g) k := by
      unfold Stheno.kmul; split <;> trivial
    rw [e]
    refine AK.intro (by simp) (fun n' hn x y M T' hx hy hM hT' => ?_) (fun n' hn x y M T' hx hy hM hT' => ?_)
    · obtain ⟨us, ws, T, hus, hws, hT, l1, h1, l2, h2, he⟩ := h x y T' hx hy hT'
      obtain ⟨P, hP, hM⟩ := bind_some hM
      obtain ⟨Q, hQ, hM2⟩ := bind_some hM
      cases n' with
      | zero => simp [ev, Ev.bot] at hP
      | succ n' =>
        rw [ev_K_atom hx hy] at hP
        obtain ⟨u, hu, hP⟩ := bind_some hP
        obtain ⟨w, hw, hP2⟩ := bind_some hP
        cases hP2
        have b := hbig x y T' hx hy hT'
        have fu := stepFn_fits (hm n' (by omega)) hu hus (by omega)
        have fw := stepFn_fits (hm n' (by omega)) hw hws (by omega)
        have fQ := (hk.mono hn.le).K _ _ _ _ hx hy hQ hT
        obtain ⟨hr, hc, rfl⟩ := Mat.mul_some hM2
        have hr' : u.length = Q.r := hr
        have hc' : w.length = Q.c := hc
        have fu1 := fu.1
        have fw1 := fw.1
        refine ⟨by show u.length ≤ _; omega, by show w.length ≤ _; omega, fun er ec i hi j hj => ?_⟩
        have er' : u.length = T'.r := er
        have ec' : w.length = T'.c := ec
        show u.getD i 0 * w.getD j 0 * Q.e i j = _
        rw [he i hi j hj, fu.2 (by omega), fw.2 (by omega), fQ.e (by omega) (by omega) i (by omega) j (by omega)]
    · obtain ⟨us, ws, T, hus, hws, hT, l1, h1, l2, h2, he⟩ := h x y T' hx hy hT'
      obtain ⟨P, hP, hM⟩ := bind_some hM
      obtain ⟨Q, hQ, hM2⟩ := bind_some hM
      cases n' with
      | zero => simp [ev, Ev.bot] at hP
      | succ n' =>
        rw [ev_D_atom hx hy] at hP
        obtain ⟨u, hu, hP⟩ := bind_some hP
        obtain ⟨w, hw, hP2⟩ := bind_some hP
        have b := hbig x y T' hx hy hT'
        have fu := stepFn_fits (hm n' (by omega)) hu hus (by omega)
        have fw := stepFn_fits (hm n' (by omega)) hw hws (by omega)
        have fQ := (hk.mono hn.le).D _ _ _ _ hx hy hQ hT
        obtain ⟨e1, rfl⟩ := zipCol_some hP2
        obtain ⟨e2, rfl⟩ := zipCol_some hM2
        have fu1 := fu.1
        have fw1 := fw.1
        simp only [List.length_zipWith] at e2
        refine ⟨by simp only [List.length_zipWith]; omega, by simp only [List.length_zipWith]; omega,
          fun er ec i hi => ?_⟩
        simp only [List.length_zipWith] at er ec
        have hj : i < T'.c := by omega
        rw [List.getElem?_zipWith, List.getElem?_zipWith, fQ.e (by omega) (by omega) i (by omega), fu.2 (by omega),
          fw.2 (by omega), he i hi i hj, List.getElem?_eq_getElem (by omega), List.getElem?_eq_getElem (by omega),
          getD_get_real (by omega), getD_get_real (by omega)]

theorem fn_law_atom {f : Fn} {g : V → ℝ → V} {x : Input} (h : G x = do
      let vs ← A x
      let us ← I.fnAt f x vs.length
      pure (List.zipWith g vs us)) {rs : List V} (hrs : G x = some rs) :
    ∃ vs us, A x = some vs ∧ I.FnVal f x us ∧ us.length = vs.length ∧ rs = List.zipWith g vs us := by
  rw [h] at hrs
  obtain ⟨vs, hvs, hu⟩ := bind_some hrs
  obtain ⟨ts, hts, hu⟩ := bind_some hu
  cases hu
  obtain ⟨h1, h2⟩ := Interp.fnAt_val hts
  exact ⟨vs, ts, hvs, h1, h2, rfl⟩

theorem AK.fmulLeft (hm : ∀ n' < n, ∀ (m : MId) p a, lm m p = some a → SM lm lk n' a (expect (I.S m) (I.F m p)))
    {f : Fn} (hG : G.OK) (hH : H.OK) (h : ∀ x, x.IsAtom → G x = do
      let vs ← A x
      let us ← I.fnAt f x vs.length
      pure (List.zipWith (fun v u => u • v) vs us)) {a : KExpr} (ha : AK lm lk n a (cov S A H)) :
    AK lm lk n (Stheno.kmul (.tprod f (.const 1)) a) (cov S G H) := by
  refine ha.tmul hm (cov_big hG hH) fun x y T' hx hy hT' => ?_
  obtain ⟨rs, ts, h1, h2, rfl⟩ := cov_some S hT'
  obtain ⟨vs, us, hvs, hus, hl, rfl⟩ := fn_law_atom (h x hx) h1
  refine ⟨us, List.replicate ts.length 1, _, hus, by simp [Interp.FnVal], cov_of S hvs h2, by simp [covMat, hl],
    by simp [covMat, hl], by simp [covMat], rfl, fun i hi j hj => ?_⟩
  have hi' : i < vs.length := by simpa [covMat, hl] using hi
  have hj' : j < ts.length := hj
  show S.C _ (ts.getD j 0) = us.getD i 0 * _ * S.C (vs.getD i 0) (ts.getD j 0)
  rw [zipWith_getD hi' (hl ▸ hi'), getD_get hi', getD_get_real (hl ▸ hi'), getD_get_real (by simpa using hj')]
  simp

theorem AK.fmul (hm : ∀ n' < n, ∀ (m : MId) p a, lm m p = some a → SM lm lk n' a (expect (I.S m) (I.F m p)))
    {f : Fn} (hG : G.OK) (h : ∀ x, x.IsAtom → G x = do
      let vs ← A x
      let us ← I.fnAt f x vs.length
      pure (List.zipWith (fun v u => u • v) vs us)) {a : KExpr} (ha : AK lm lk n a (cov S A A)) :
    AK lm lk n (Stheno.kmul (.tprod f f) a) (cov S G G) := by
  refine ha.tmul hm (cov_big hG hG) fun x y T' hx hy hT' => ?_
  obtain ⟨rs, ts, h1, h2, rfl⟩ := cov_some S hT'
  obtain ⟨vs, us, hvs, hus, hl, rfl⟩ := fn_law_atom (h x hx) h1
  obtain ⟨vs', us', hvs', hus', hl', rfl⟩ := fn_law_atom (h y hy) h2
  refine ⟨us, us', _, hus, hus', cov_of S hvs hvs', by simp [covMat, hl],
    by simp [covMat, hl], by simp [covMat, hl'], by simp [covMat, hl'], fun i hi j hj => ?_⟩
  have hi' : i < vs.length := by simpa [covMat, hl] using hi
  have hj' : j < vs'.length := by simpa [covMat, hl'] using hj
  show S.C _ _ = us.getD i 0 * us'.getD j 0 * S.C (vs.getD i 0) (vs'.getD j 0)
  rw [zipWith_getD hi' (hl ▸ hi'), zipWith_getD hj' (hl' ▸ hj'), getD_get hi', getD_get_real (hl ▸ hi'),
    getD_get hj', getD_get_real (hl' ▸ hj')]
  simp only [map_smul, LinearMap.smul_apply, smul_eq_mul]
  ring

theorem AK.addFnLeft (h1 : ∀ v, S.C I.one v = 0) {f : Fn} (h : ∀ x, x.IsAtom → G x = do
      let vs ← A x
      let us ← I.fnAt f x vs.length
      pure (List.zipWith (fun v u => v + u • I.one) vs us)) {a : KExpr} (ha : AK lm lk n a (cov S A H)) :
    AK lm lk n a (cov S G H) := by
  refine ha.of_sub fun x y T' hx hy hT' => ?_
  obtain ⟨rs, ts, hr, h2, rfl⟩ := cov_some S hT'
  obtain ⟨vs, us, hvs, hus, hl, rfl⟩ := fn_law_atom (h x hx) hr
  refine ⟨_, cov_of S hvs h2, by simp [covMat, hl], rfl, fun i hi j hj => ?_⟩
  have hi' : i < vs.length := by simpa [covMat, hl] using hi
  show S.C (vs.getD i 0) (ts.getD j 0) = S.C _ (ts.getD j 0)
  rw [zipWith_getD hi' (hl ▸ hi'), getD_get hi']
  simp [h1]

theorem AK.addFn (h1 : ∀ v, S.C I.one v = 0) {f : Fn} (h : ∀ x, x.IsAtom → G x = do
      let vs ← A x
      let us ← I.fnAt f x vs.length
      pure (List.zipWith (fun v u => v + u • I.one) vs us)) {a : KExpr} (ha : AK lm lk n a (cov S A A)) :
    AK lm lk n a (cov S G G) := by
  have h1' : ∀ v, S.C v I.one = 0 := fun v => by rw [S.symm]; exact h1 v
  refine ha.of_sub fun x y T' hx hy hT' => ?_
  obtain ⟨rs, ts, hr, h2, rfl⟩ := cov_some S hT'
  obtain ⟨vs, us, hvs, hus, hl, rfl⟩ := fn_law_atom (h x hx) hr
  obtain ⟨vs', us', hvs', hus', hl', rfl⟩ := fn_law_atom (h y hy) h2
  refine ⟨_, cov_of S hvs hvs', by simp [covMat, hl], by simp [covMat, hl'], fun i hi j hj => ?_⟩
  have hi' : i < vs.length := by simpa [covMat, hl] using hi
  have hj' : j < vs'.length := by simpa [covMat, hl'] using hj
  show S.C (vs.getD i 0) (vs'.getD j 0) = S.C _ _
  rw [zipWith_getD hi' (hl ▸ hi'), zipWith_getD hj' (hl' ▸ hj'), getD_get hi', getD_get hj']
  simp [h1, h1']

/-! ## Input transformations -/

theorem mapM_some_id {α : Type} (l : List α) : l.mapM (fun x => some x) = some l := by
  induction l with
  | nil => rfl
  | cons a l ih => rw [List.mapM_cons, ih]; rfl

theorem neutral_apply {t : InTr} {y y' : Input} (h : t.neutral.apply y = some y') : y' = y := by
  cases t with
  | shift a =>
    cases y with
    | num ys =>
      simp only [InTr.neutral, InTr.apply, Option.map_eq_some_iff] at h
      obtain ⟨zs, h, rfl⟩ := h
      have : zs = ys := by
        have h' : ys.mapM (fun x => some x) = some zs := by
          rw [← h]; congr 1; funext x; simp [Amt.sub]
        rw [mapM_some_id] at h'; exact (Option.some.inj h').symm
      rw [this]
    | fdd p x => simp [InTr.neutral, InTr.apply] at h
    | tup xs => simp [InTr.neutral, InTr.apply] at h
  | stretch a =>
    cases y with
    | num ys =>
      simp only [InTr.neutral, InTr.apply, Option.map_eq_some_iff] at h
      obtain ⟨zs, h, rfl⟩ := h
      have : zs = ys := by
        have h' : ys.mapM (fun x => some x) = some zs := by
          rw [← h]; congr 1; funext x; simp [Amt.div]
        rw [mapM_some_id] at h'; exact (Option.some.inj h').symm
      rw [this]
    | fdd p x => simp [InTr.neutral, InTr.apply] at h
    | tup xs => simp [InTr.neutral, InTr.apply] at h
  | none => cases y <;> simp_all [InTr.neutral, InTr.apply]
  | select ds => cases y <;> simp_all [InTr.neutral, InTr.apply]
  | map g => cases y <;> simp_all [InTr.neutral, InTr.apply]
  | toFdd j => cases y <;> simp_all [InTr.neutral, InTr.apply]

theorem AK.preLeft {t : InTr} (hG : G.OK) (hH : H.OK) (h : ∀ x, x.IsAtom → G x = do A (← t.apply x))
    {a : KExpr} (ha : AK lm lk n a (cov S A H)) : AK lm lk n (Stheno.kpre t t.neutral a) (cov S G H) := by
  refine ha.kpre (fun hz x y T hx hy hT i hi j hj => ?_) (cov_big hG hH) fun x y x' y' T' hx hy hx' hy' hT' => ?_
  · obtain ⟨rs, ts, hr, h2, rfl⟩ := cov_some S hT
    rw [h x hx] at hr
    obtain ⟨x', hx', hr⟩ := bind_some hr
    exact hz x' y _ (InTr.apply_atom hx') hy (cov_of S hr h2) i hi j hj
  · obtain ⟨rs, ts, hr, h2, rfl⟩ := cov_some S hT'
    rw [h x hx, hx'] at hr
    rw [neutral_apply hy']
    exact ⟨_, cov_of S hr h2, Mat.Eqv.refl _⟩

theorem AK.pre {t : InTr} (hG : G.OK) (h : ∀ x, x.IsAtom → G x = do A (← t.apply x))
    {a : KExpr} (ha : AK lm lk n a (cov S A A)) : AK lm lk n (Stheno.kpre t t a) (cov S G G) := by
  refine ha.kpre (fun hz x y T hx hy hT i hi j hj => ?_) (cov_big hG hG) fun x y x' y' T' hx hy hx' hy' hT' => ?_
  · obtain ⟨rs, ts, hr, h2, rfl⟩ := cov_some S hT
    rw [h x hx] at hr
    rw [h y hy] at h2
    obtain ⟨x', hx', hr⟩ := bind_some hr
    obtain ⟨y', hy', h2⟩ := bind_some h2
    exact hz x' y' _ (InTr.apply_atom hx') (InTr.apply_atom hy') (cov_of S hr h2) i hi j hj
  · obtain ⟨rs, ts, hr, h2, rfl⟩ := cov_some S hT'
    rw [h x hx, hx'] at hr
    rw [h y hy, hy'] at h2
    exact ⟨_, cov_of S hr h2, Mat.Eqv.refl _⟩

/-! ## The remainder of a product -/

theorem AK.rem (h : ∀ x rs, x.IsAtom → G x = some rs → ∃ vs ws, A x = some vs ∧
      B x = some ws ∧ vs.length = rs.length ∧ ws.length = rs.length)
    (hC : ∀ x y rs rs' vs vs' ws ws', x.IsAtom → y.IsAtom → G x = some rs → G y = some rs' →
        A x = some vs → A y = some vs' → B x = some ws → B y = some ws' →
        ∀ i < rs.length, ∀ j < rs'.length, S.C (rs.getD i 0) (rs'.getD j 0) =
          S.C (vs.getD i 0) (vs'.getD j 0) * S.C (ws.getD i 0) (ws'.getD j 0) +
          S.C (vs.getD i 0) (ws'.getD j 0) * S.C (ws.getD i 0) (vs'.getD j 0))
    (hA : A.OK)
    {a b c d : KExpr} (ha : AK lm lk n a (cov S A A)) (hb : AK lm lk n b (cov S B B))
    (hc : AK lm lk n c (cov S A B)) (hd : AK lm lk n d (cov S B A)) :
    AK lm lk n (Stheno.kadd (Stheno.kmul a b) (Stheno.kmul c d)) (cov S G G) := by
  have hB1 : (Den.mul (cov S A A) (cov S B B)).Big := by
    intro x y T hx hy hT
    obtain ⟨P, Q, hP, hQ, hT⟩ := Den.mul_some hT
    obtain ⟨_, _, rfl⟩ := Mat.mul_some hT
    exact cov_big hA hA x y P hx hy hP
  have hB2 : (Den.mul (cov S A B) (cov S B A)).Big := by
    intro x y T hx hy hT
    obtain ⟨P, Q, hP, hQ, hT⟩ := Den.mul_some hT
    obtain ⟨e1, e2, rfl⟩ := Mat.mul_some hT
    obtain ⟨vs, ws, h1, h2, rfl⟩ := cov_some S hP
    obtain ⟨ws', vs', h1', h2', rfl⟩ := cov_some S hQ
    refine ⟨hA.size _ _ h1, ?_⟩
    rw [show (covMat S vs ws).c = (covMat S ws' vs').c from e2]
    exact hA.size _ _ h2'
  refine ((ha.kmul hb hB1).kadd (hc.kmul hd hB2)).of_sub fun x y T' hx hy hT' => ?_
  obtain ⟨rs, rs', h1, h2, rfl⟩ := cov_some S hT'
  obtain ⟨vs, ws, hvs, hws, l1, l2⟩ := h x rs hx h1
  obtain ⟨vs', ws', hvs', hws', l1', l2'⟩ := h y rs' hy h2
  have e1 := Den.mul_of (cov_of S hvs hvs') (cov_of S hws hws') (l1.trans l2.symm) (l1'.trans l2'.symm)
  have e2 := Den.mul_of (cov_of S hvs hws') (cov_of S hws hvs') (l1.trans l2.symm) (l2'.trans l1'.symm)
  have e3 := Den.add_of e1 e2 rfl (l1'.trans l2'.symm)
  refine ⟨_, e3, l1, l1', fun i hi j hj => ?_⟩
  exact (hC x y rs rs' vs vs' ws ws' hx hy h1 h2 hvs hvs' hws hws' i hi j hj).symm

end Stheno
