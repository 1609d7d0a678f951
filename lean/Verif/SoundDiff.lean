import Verif.SoundKern
import Mathlib.Analysis.Calculus.Deriv.Basic

/-!
# Soundness of derivatives
-/

namespace Stheno

set_option linter.unusedSectionVars false

variable {V : Type} [AddCommGroup V] [Module ℝ V] {S : SO V} {G H A : RF V}
variable {lm : MId → PId → Option MExpr} {lk : MId → PId → PId → Option KExpr} {n : ℕ}

open Classical in
/-- The law of a derivative, for any expectation and covariance: `G` is the derivative of `A` with respect to
feature `d`, at the rows in `P`. -/
def IsDiff (S : SO V) (d : ℕ) (P : Pt → Prop) (G A : RF V) (f f' : Pt → V) : Prop :=
  (∀ x v, A (.num [x]) = some [v] → v = f x) ∧
  (∀ xs, G (.num xs) = if ∀ x ∈ xs, P x then some (xs.map f') else none) ∧
  (∀ q x, G (.fdd q x) = none) ∧
  (∀ x, P x → A.Along d x) ∧
  ∀ x : Pt, P x → S.Slope (fun t => f (bump d t x)) (f' x)

theorem pointOf_eq {x : Pt} {v : V} (h : A (.num [x]) = some [v]) : v = pointOf A x := by
  unfold pointOf; rw [h]

/-- A derivative that is given row by row. -/
theorem IsDiff.rows {d : ℕ} {δ : Pt → Option V} (h1 : ∀ xs, G (.num xs) = xs.mapM δ) (h2 : ∀ q x, G (.fdd q x) = none)
    (h3 : ∀ x w, δ x = some w → A.Along d x ∧ S.Slope (fun t => pointOf A (bump d t x)) w) :
    IsDiff S d (fun x => (δ x).isSome) G A (pointOf A) fun x => (δ x).getD 0 := by
  refine ⟨fun x v => pointOf_eq, fun xs => ?_, h2, fun x hx => ?_, fun x hx => ?_⟩
  · rw [h1]
    induction xs with
    | nil => simp
    | cons x xs ih =>
      rw [List.mapM_cons, ih]
      cases hx : δ x with
      | none => simp [hx]
      | some w =>
        by_cases h : ∀ x ∈ xs, (δ x).isSome
        · rw [if_pos h, if_pos (List.forall_mem_cons.2 ⟨by rw [hx]; rfl, h⟩)]
          simp [hx]
        · rw [if_neg h, if_neg fun h' => h (List.forall_mem_cons.1 h').2]
          rfl
  · obtain ⟨w, hw⟩ := Option.isSome_iff_exists.1 hx
    exact (h3 x w hw).1
  · obtain ⟨w, hw⟩ := Option.isSome_iff_exists.1 hx
    have := (h3 x w hw).2
    simp only [hw, Option.getD_some]
    exact this

theorem scalK_eq {k : KExpr} (hk : AK lm lk n k (cov S A H)) {x y : Pt} {v w : V} (hx : A (.num [x]) = some [v])
    (hy : H (.num [y]) = some [w]) {c : ℝ} (h : scalK (ev lm lk n) k x y = some c) : c = S.C v w := by
  obtain ⟨M, hM, h⟩ := bind_some h
  split at h
  · next e =>
    cases h
    have f := hk.K (.num [x]) (.num [y]) _ _ trivial trivial hM (cov_of S hx hy)
    exact f.e e.1 e.2 0 (by simp [covMat]) 0 (by simp [covMat])
  · cases h

theorem IsDiff.num {d : ℕ} {P : Pt → Prop} {f f' : Pt → V} (h : IsDiff S d P G A f f') {x : Input} {rs : List V} (hx : x.IsAtom)
    (hr : G x = some rs) : ∃ xs : List Pt, x = .num xs ∧ (∀ p ∈ xs, P p) ∧ rs = xs.map f' := by
  cases x with
  | num xs =>
    rw [h.2.1] at hr
    split at hr
    · next e => cases hr; exact ⟨xs, rfl, e, rfl⟩
    · cases hr
  | fdd q x => rw [h.2.2.1] at hr; cases hr
  | tup xs => exact hx.elim

theorem IsDiff.one {d : ℕ} {P : Pt → Prop} {f f' : Pt → V} (h : IsDiff S d P G A f f') {x : Pt} (hx : P x) (t : ℝ) :
    A (.num [bump d t x]) = some [f (bump d t x)] := by
  obtain ⟨v, hv⟩ := (h.2.2.2.1 x hx).2 t
  rw [hv, h.1 _ v hv]

/-- One entry of the derivative of a kernel in its first argument. -/
theorem IsDiff.entryLeft {d : ℕ} {P : Pt → Prop} {f f' : Pt → V} (h : IsDiff S d P G A f f') {k : KExpr}
    (hk : AK lm lk n k (cov S A H)) {x y : Pt} (hx : P x) {w : V} (hy : H (.num [y]) = some [w]) {c : ℝ}
    (hc : diffEntry (ev lm lk n) k (some d) none x y = some c) : c = S.C (f' x) w := by
  unfold diffEntry at hc
  split at hc
  · next e =>
    cases hc
    have e1 : (fun s => (scalK (ev lm lk n) k (bump d s x) y).getD 0) = fun s => S.C (f (bump d s x)) w := by
      funext s
      have hs : (scalK (ev lm lk n) k (bump d s x) y).isSome := e.2.2 s 0
      obtain ⟨v, hv⟩ := Option.isSome_iff_exists.1 hs
      rw [hv]
      exact scalK_eq hk (h.one hx s) hy hv
    show deriv (fun s => (scalK (ev lm lk n) k (bump d s x) y).getD 0) 0 = _
    rw [e1]
    exact ((h.2.2.2.2 x hx).2 w).deriv
  · cases hc

/-- One entry of the derivative of a kernel in both arguments. -/
theorem IsDiff.entry {d : ℕ} {P : Pt → Prop} {f f' : Pt → V} (h : IsDiff S d P G A f f') {k : KExpr}
    (hk : AK lm lk n k (cov S A A)) {x y : Pt} (hx : P x) (hy : P y) {c : ℝ}
    (hc : diffEntry (ev lm lk n) k (some d) (some d) x y = some c) : c = S.C (f' x) (f' y) := by
  unfold diffEntry at hc
  split at hc
  · next e =>
    cases hc
    have e1 : ∀ s t, (scalK (ev lm lk n) k (bump d s x) (bump d t y)).getD 0 =
        S.C (f (bump d t y)) (f (bump d s x)) := by
      intro s t
      have hs : (scalK (ev lm lk n) k (bump d s x) (bump d t y)).isSome := e.2.2 s t
      obtain ⟨v, hv⟩ := Option.isSome_iff_exists.1 hs
      rw [hv, S.symm]
      exact scalK_eq hk (h.one hx s) (h.one hy t) hv
    show deriv (fun s => deriv (fun t => (scalK (ev lm lk n) k (bump d s x) (bump d t y)).getD 0) 0) 0 = _
    simp only [e1]
    have e2 : (fun s => deriv (fun t => S.C (f (bump d t y)) (f (bump d s x))) 0) =
        fun s => S.C (f (bump d s x)) (f' y) := by
      funext s
      rw [((h.2.2.2.2 y hy).2 _).deriv, S.symm]
    rw [e2]
    exact ((h.2.2.2.2 x hx).2 _).deriv
  · cases hc

theorem AK.diffGen {k : KExpr} {d e : Option ℕ} {D : Den} (hk : k ≠ .zero)
    (hD : ∀ x y T, x.IsAtom → y.IsAtom → D x y = some T → ∀ xs ys, x = .num xs → y = .num ys →
      xs.length ≤ T.r ∧ ys.length ≤ T.c ∧ (xs.length = T.r → ys.length = T.c →
        ∀ (i j : ℕ) p q, xs[i]? = some p → ys[j]? = some q → ∀ n' < n, ∀ c,
          diffEntry (ev lm lk n') k d e p q = some c → c = T.e i j)) :
    AK lm lk n (Stheno.kdiff d e k) D := by
  have : Stheno.kdiff d e k = KExpr.diff d e k := by unfold Stheno.kdiff; split <;> trivial
  rw [this]
  refine AK.intro (by simp) (fun n' hn x y M T hx hy hM hT => ?_) (fun n' hn x y u T hx hy hM hT => ?_)
  · cases x with
    | fdd => simp [stepKAtom] at hM
    | tup => exact hx.elim
    | num xs =>
      cases y with
      | fdd => simp [stepKAtom] at hM
      | tup => exact hy.elim
      | num ys =>
        obtain ⟨h1, h2, h3⟩ := hD _ _ T hx hy hT xs ys rfl rfl
        simp only [stepKAtom, diffMat] at hM
        split at hM
        · next ha =>
          cases hM
          refine ⟨h1, h2, fun er ec i hi j hj => ?_⟩
          have hi' : i < xs.length := by rw [show xs.length = T.r from er]; exact hi
          have hj' : j < ys.length := by rw [show ys.length = T.c from ec]; exact hj
          obtain ⟨c, hc⟩ := Option.isSome_iff_exists.1 (ha _ (List.getElem_mem hi') _ (List.getElem_mem hj'))
          simp only [hi', hj', and_self, if_true, List.getD_eq_getElem?_getD, List.getElem?_eq_getElem hi',
            List.getElem?_eq_getElem hj', Option.getD_some, hc]
          exact h3 er ec i j _ _ (List.getElem?_eq_getElem hi') (List.getElem?_eq_getElem hj') n' hn c hc
        · cases hM
  · cases x with
    | fdd => simp [stepDAtom] at hM
    | tup => exact hx.elim
    | num xs =>
      cases y with
      | fdd => simp [stepDAtom] at hM
      | tup => exact hy.elim
      | num ys =>
        obtain ⟨h1, h2, h3⟩ := hD _ _ T hx hy hT xs ys rfl rfl
        simp only [stepDAtom] at hM
        split at hM
        · next hl =>
          have hu := mapM_length hM
          simp only [List.length_zip, ← hl, min_self] at hu
          refine ⟨by omega, by omega, fun er ec i hi => ?_⟩
          have hi' : i < xs.length := by omega
          have hj' : i < ys.length := by omega
          have hiu : i < u.length := by omega
          have key : ∀ (l : List (Pt × Pt)) (u : List ℝ), l.mapM (fun xy => diffEntry (ev lm lk n') k d e xy.1 xy.2) =
              some u → ∀ (i : ℕ) (p : Pt × Pt), l[i]? = some p → ∃ c, u[i]? = some c ∧
                diffEntry (ev lm lk n') k d e p.1 p.2 = some c := by
            intro l
            induction l with
            | nil => intro u _ i p hp; simp at hp
            | cons a l ih =>
              intro u hu i p hp
              obtain ⟨b, bs, hb, hbs, rfl⟩ := mapM_cons_some hu
              cases i with
              | zero => simp at hp; subst hp; exact ⟨b, rfl, hb⟩
              | succ i => exact ih bs hbs i p (by simpa using hp)
          obtain ⟨c, hc, he⟩ := key _ _ hM i (xs[i], ys[i])
            (by simp [List.getElem?_zip_eq_some, List.getElem?_eq_getElem hi', List.getElem?_eq_getElem hj'])
          rw [hc, h3 (by omega) (by omega) i i _ _ (List.getElem?_eq_getElem hi') (List.getElem?_eq_getElem hj') n' hn c he]
        · cases hM

theorem IsDiff.zero {d : ℕ} {P : Pt → Prop} {f f' : Pt → V} (h : IsDiff S d P G A f f') (hz : Den.Zero (cov S A H)) {y : Input}
    {ws : List V} (hy : y.IsAtom) (hw : H y = some ws) {x : Pt} (hx : P x) {w : V} (hm : w ∈ ws) :
    S.C (f' x) w = 0 := by
  obtain ⟨j, hj, rfl⟩ := List.getElem_of_mem hm
  have e : (fun t => S.C (f (bump d t x)) ws[j]) = fun _ => 0 := by
    funext t
    have := hz (.num [bump d t x]) y _ trivial hy (cov_of S (h.one hx t) hw) 0 (by simp [covMat]) j hj
    rw [← getD_get hj]
    exact this
  have h1 := (h.2.2.2.2 x hx).2 ws[j]
  rw [e] at h1
  exact h1.unique (hasDerivAt_const ..)

theorem AK.diffLeft {d : ℕ} {P : Pt → Prop} {f f' : Pt → V} (hG : G.OK) (hH : H.OK) (h : IsDiff S d P G A f f') {k : KExpr}
    (hk : AK lm lk n k (cov S A H)) : AK lm lk n (Stheno.kdiff (some d) none k) (cov S G H) := by
  by_cases hz : k = .zero
  · subst hz
    refine AK.zeroK (fun x y T hx hy hT i hi j hj => ?_) (cov_big hG hH)
    obtain ⟨rs, ws, h1, h2, rfl⟩ := cov_some S hT
    obtain ⟨xs, rfl, hd, rfl⟩ := h.num hx h1
    have hi' : i < xs.length := by simpa [covMat] using hi
    have hi2 : i < (xs.map f').length := hi
    show S.C _ (ws.getD j 0) = 0
    rw [getD_get hi2, getD_get hj, List.getElem_map]
    exact h.zero (hk.zero rfl) hy h2 (hd _ (List.getElem_mem hi')) (List.getElem_mem _)
  · refine AK.diffGen hz fun x y T hx hy hT xs ys ex ey => ?_
    subst ex ey
    have hb := cov_big hG hH _ _ T hx hy hT
    obtain ⟨rs, ws, h1, h2, rfl⟩ := cov_some S hT
    obtain ⟨xs', ex, hd, rfl⟩ := h.num hx h1
    cases ex
    refine ⟨hb.1, hb.2, fun er ec i j p q hp hq n' hn c hc => ?_⟩
    obtain ⟨hi, rfl⟩ := List.getElem?_eq_some_iff.1 hp
    obtain ⟨hj, rfl⟩ := List.getElem?_eq_some_iff.1 hq
    have hj' : j < ws.length := by rw [← show ys.length = ws.length from ec]; exact hj
    have hi2 : i < (xs.map f').length := by simpa using hi
    have hy := hH.pointwise ys ws h2 ec.symm j _ ws[j] (List.getElem?_eq_getElem hj) (List.getElem?_eq_getElem hj')
    show c = S.C ((xs.map f').getD i 0) (ws.getD j 0)
    rw [getD_get hi2, getD_get hj', List.getElem_map]
    exact h.entryLeft (hk.mono hn.le) (hd _ (List.getElem_mem hi)) hy hc

theorem AK.diff {d : ℕ} {P : Pt → Prop} {f f' : Pt → V} (hG : G.OK) (h : IsDiff S d P G A f f') {k : KExpr}
    (hk : AK lm lk n k (cov S A A)) : AK lm lk n (Stheno.kdiff (some d) (some d) k) (cov S G G) := by
  by_cases hz : k = .zero
  · subst hz
    refine AK.zeroK (fun x y T hx hy hT i hi j hj => ?_) (cov_big hG hG)
    obtain ⟨rs, ws, h1, h2, rfl⟩ := cov_some S hT
    obtain ⟨xs, rfl, hd, rfl⟩ := h.num hx h1
    obtain ⟨ys, rfl, hd', rfl⟩ := h.num hy h2
    have hi' : i < xs.length := by simpa [covMat] using hi
    have hj' : j < ys.length := by simpa [covMat] using hj
    have hi2 : i < (xs.map f').length := hi
    have hj2 : j < (ys.map f').length := hj
    show S.C _ _ = 0
    rw [getD_get hi2, getD_get hj2, List.getElem_map, List.getElem_map]
    have e : (fun t => S.C (f (bump d t ys[j])) (f' xs[i])) = fun _ => 0 := by
      funext t
      rw [S.symm]
      exact h.zero (hk.zero rfl) (y := .num [bump d t ys[j]]) trivial (h.one (hd' _ (List.getElem_mem hj')) t) (hd _ (List.getElem_mem hi'))
        (List.mem_singleton.2 rfl)
    have h1 := (h.2.2.2.2 ys[j] (hd' _ (List.getElem_mem hj'))).2 (f' xs[i])
    rw [e] at h1
    rw [S.symm]
    exact h1.unique (hasDerivAt_const ..)
  · refine AK.diffGen hz fun x y T hx hy hT xs ys ex ey => ?_
    subst ex ey
    have hb := cov_big hG hG _ _ T hx hy hT
    obtain ⟨rs, ws, h1, h2, rfl⟩ := cov_some S hT
    obtain ⟨xs', ex, hd, rfl⟩ := h.num hx h1
    cases ex
    obtain ⟨ys', ey, hd', rfl⟩ := h.num hy h2
    cases ey
    refine ⟨hb.1, hb.2, fun er ec i j p q hp hq n' hn c hc => ?_⟩
    obtain ⟨hi, rfl⟩ := List.getElem?_eq_some_iff.1 hp
    obtain ⟨hj, rfl⟩ := List.getElem?_eq_some_iff.1 hq
    have hi2 : i < (xs.map f').length := by simpa using hi
    have hj2 : j < (ys.map f').length := by simpa using hj
    show c = S.C ((xs.map f').getD i 0) ((ys.map f').getD j 0)
    rw [getD_get hi2, getD_get hj2, List.getElem_map, List.getElem_map]
    exact h.entry (hk.mono hn.le) (hd _ (List.getElem_mem hi)) (hd' _ (List.getElem_mem hj)) hc

theorem SM.diff {d : ℕ} {P : Pt → Prop} {f f' : Pt → V} (h : IsDiff S d P G A f f') {a : MExpr}
    (ha : SM lm lk n a (expect S A)) : SM lm lk n (.diff d a) (expect S G) := by
  refine SM.intro fun n' hn x u t hu ht => ?_
  obtain ⟨rs, hr, rfl⟩ := expect_some ht
  cases x with
  | fdd => simp [stepM] at hu
  | tup => simp [stepM] at hu
  | num xs =>
    obtain ⟨xs', ex, hd, rfl⟩ := h.num (x := .num xs) trivial hr
    cases ex
    simp only [stepM] at hu
    have : ∀ (l : List Pt) (u : List ℝ), (∀ p ∈ l, P p) → l.mapM (diffMEntry (ev lm lk n') a d) = some u →
        u = (l.map f').map S.E := by
      intro l
      induction l with
      | nil => intro u _ h; simp at h; subst h; rfl
      | cons x l ih =>
        intro u hl hu
        obtain ⟨b, bs, hb, hbs, rfl⟩ := mapM_cons_some hu
        rw [ih bs (fun p hp => hl p (List.mem_cons_of_mem _ hp)) hbs]
        simp only [List.map_cons, List.cons.injEq, and_true]
        unfold diffMEntry at hb
        split at hb
        · next e =>
          cases hb
          have e1 : (fun s => (scalM (ev lm lk n') a (bump d s x)).getD 0) = fun s => S.E (f (bump d s x)) := by
            funext s
            obtain ⟨v, hv⟩ := Option.isSome_iff_exists.1 (e.2 s)
            rw [hv]
            obtain ⟨vs, hvs, hv⟩ := bind_some hv
            have := (ha.fits hn.le hvs (expect_of (h.one (hl x (List.mem_cons_self ..)) s)))
            match vs, hv with
            | [c], hv =>
              cases hv
              have := this.2 rfl
              simpa using this
          rw [e1]
          exact ((h.2.2.2.2 x (hl x (List.mem_cons_self ..))).1).deriv
        · cases hb
    rw [this xs u hd hu]
    exact FitsM.refl _

end Stheno
