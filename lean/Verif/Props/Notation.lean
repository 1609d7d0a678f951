import Verif.Props.Take

/-!
# Notations for conditioning, and missing data: C24, C25
-/

namespace Stheno

open Matrix

/-! ## Available data -/

/-- The part of an FDD at a numeric input, and of data for it, that is not missing: the rows of the input, the rows and columns
of the noise and the entries of the data at the positions at which the data are not NaN. -/
noncomputable def available (e : Fdd × Vals) : Fdd × List ℝ :=
  let mask := e.2.map Option.isSome
  let is := positions mask
  (⟨e.1.p,
    match e.1.x with
    | .num xs => .num (((xs.zip mask).filter (·.2)).map (·.1))
    | x => x,
    ⟨is.length, is.length, fun i j => if i < is.length ∧ j < is.length then e.1.noise.e (is.getD i 0) (is.getD j 0) else 0⟩⟩,
  e.2.filterMap id)

/-- An FDD of a process at rows at which it can be called, and noise and data of the right sizes. -/
def FitsV (G : Dom) (e : Fdd × Vals) : Prop :=
  ∃ xs, e.1.x = .num xs ∧ Rows (G e.1.p) xs ∧ e.1.noise.r = xs.length ∧ e.1.noise.c = xs.length ∧ e.2.length = xs.length

theorem pick_all {α : Type} : ∀ {xs : List α} {mask : List Bool}, xs.length = mask.length → (∀ b ∈ mask, b = true) →
    pick xs mask = xs
  | [], [], _, _ => rfl
  | x :: xs, b :: mask, h, hb => by
    rw [hb b (by simp)]
    simp only [pick, List.cons.injEq, true_and]
    exact pick_all (by simpa using h) fun b h => hb b (by simp [h])

theorem positions_all {mask : List Bool} (h : ∀ b ∈ mask, b = true) : positions mask = List.range mask.length := by
  rw [← pick_range]; exact pick_all (by simp) h

theorem isSome_all {y : Vals} (h : y.all Option.isSome = true) : ∀ b ∈ y.map Option.isSome, b = true := by
  intro b hb
  obtain ⟨a, ha, rfl⟩ := List.mem_map.1 hb
  exact List.all_eq_true.1 h a ha

section
variable {G : Dom} {e : Fdd × Vals}

theorem available_x {xs : List Pt} (h : e.1.x = .num xs) : (available e).1.x = .num (pick xs (e.2.map Option.isSome)) := by
  unfold available
  rw [h, pick_eq]

theorem filterMap_length (y : Vals) : (y.filterMap id).length = (y.map Option.isSome).count true := by
  induction y with
  | nil => rfl
  | cons a y ih => cases a <;> simp_all

theorem pick_length {α : Type} {xs : List α} {mask : List Bool} (h : xs.length = mask.length) :
    (pick xs mask).length = mask.count true := by
  induction xs generalizing mask with
  | nil =>
    cases mask with
    | nil => rfl
    | cons => cases h
  | cons x xs ih =>
    cases mask with
    | nil => cases h
    | cons b mask => cases b <;> simp [pick, ih (mask := mask) (by simpa using h)]

theorem pick_mem {α : Type} {x : α} : ∀ {xs : List α} {mask : List Bool}, x ∈ pick xs mask → x ∈ xs
  | [], [], h => h
  | [], _ :: _, h => h
  | _ :: _, [], h => by cases h
  | y :: xs, b :: mask, h => by
    cases b with
    | false => exact List.mem_cons_of_mem _ (pick_mem h)
    | true =>
      rcases List.mem_cons.1 h with rfl | h
      · exact List.mem_cons_self ..
      · exact List.mem_cons_of_mem _ (pick_mem h)

theorem FitsV.fits (h : FitsV G e) : Fits G (available e) := by
  obtain ⟨xs, hx, hc, h1, h2, h3⟩ := h
  have hl : (pick xs (e.2.map Option.isSome)).length = (e.2.map Option.isSome).count true := pick_length (by simp [h3])
  refine ⟨_, available_x hx, ⟨hc.1, fun r hr => hc.2 r (pick_mem hr)⟩, ?_, ?_, ?_⟩
  · rw [hl]; exact positions_length _
  · rw [hl]; exact positions_length _
  · rw [hl]; exact filterMap_length _

theorem available_noise : (e.1.noise.sub2 (positions (e.2.map Option.isSome)) (positions (e.2.map Option.isSome))).Eqv
    (available e).1.noise := by
  refine ⟨rfl, rfl, fun i hi j hj => ?_⟩
  exact (if_pos ⟨hi, hj⟩).symm

end

theorem Tells.pre {C : PId → Prop} {D : PId → ℕ} {ops b : List Op} (h : Tells C D ops) (hb : b <+: ops) : Tells C D b := by
  obtain ⟨t, rfl⟩ := hb
  intro before o after e m d hd
  exact h before o (after ++ t) (by rw [e]; simp) m d hd

/-- Submatrices of direct sums. -/
theorem dsum_sub2 {A B : Mat} {is js : List ℕ} (hA : A.r = A.c) (hi : ∀ i ∈ is, i < A.r) :
    ((A.dsum B).sub2 (is ++ js.map (· + A.r)) (is ++ js.map (· + A.r))).Eqv ((A.sub2 is is).dsum (B.sub2 js js)) := by
  have key : ∀ i < is.length + js.length, (is ++ js.map (· + A.r)).getD i 0 =
      if i < is.length then is.getD i 0 else js.getD (i - is.length) 0 + A.r := by
    intro i hi
    rw [List.getD_eq_getElem?_getD]
    split
    · next h => rw [List.getElem?_append_left h, List.getD_eq_getElem?_getD]
    · next h =>
      rw [List.getElem?_append_right (by omega), List.getElem?_map, List.getD_eq_getElem?_getD,
        List.getElem?_eq_getElem (by omega)]
      rfl
  have hlt : ∀ i < is.length, is.getD i 0 < A.r := by
    intro i h
    rw [List.getD_eq_getElem?_getD, List.getElem?_eq_getElem h]
    exact hi _ (List.getElem_mem _)
  refine ⟨by simp [Mat.sub2, Mat.dsum], by simp [Mat.sub2, Mat.dsum], fun i hi j hj => ?_⟩
  replace hi : i < is.length + js.length := hi
  replace hj : j < is.length + js.length := hj
  show (A.dsum B).e ((is ++ js.map (· + A.r)).getD i 0) ((is ++ js.map (· + A.r)).getD j 0) =
    if i < is.length then (if j < is.length then A.e (is.getD i 0) (is.getD j 0) else 0)
    else if j < is.length then 0 else B.e (js.getD (i - is.length) 0) (js.getD (j - is.length) 0)
  rw [key i hi, key j hj]
  unfold Mat.dsum
  simp only
  by_cases h1 : i < is.length <;> by_cases h2 : j < is.length
  · rw [if_pos h1, if_pos h2, if_pos (hlt i h1), if_pos (hA ▸ hlt j h2), if_pos h1, if_pos h2]
  · rw [if_pos h1, if_neg h2, if_pos (hlt i h1), if_neg (by omega), if_pos h1, if_neg h2]
  · rw [if_neg h1, if_pos h2, if_neg (by omega), if_pos (hA ▸ hlt j h2), if_neg h1, if_pos h2]
  · rw [if_neg h1, if_neg h2, if_neg (by omega), if_neg (by omega), if_neg h1, if_neg h2, Nat.add_sub_cancel, ← hA,
      Nat.add_sub_cancel]

theorem dsum_eqv {A A' B B' : Mat} (hA : A.Eqv A') (hB : B.Eqv B') : (A.dsum B).Eqv (A'.dsum B') := by
  refine ⟨by simp [Mat.dsum, hA.r, hB.r], by simp [Mat.dsum, hA.c, hB.c], fun i hi j hj => ?_⟩
  simp only [Mat.dsum] at hi hj ⊢
  rw [hA.r, hA.c]
  split
  · next h1 =>
    split
    · next h2 => exact hA.e i (by omega) j (by omega)
    · rfl
  · next h1 =>
    split
    · rfl
    · next h2 => exact hB.e _ (by omega) _ (by omega)

/-- The noise of the available part of several pairs. -/
theorem blockDiag_available {G : Dom} : ∀ {l : List (Fdd × Vals)}, (∀ e ∈ l, FitsV G e) →
    ((Mat.blockDiag (l.map (·.1.noise))).sub2 (positions ((l.flatMap (·.2)).map Option.isSome))
      (positions ((l.flatMap (·.2)).map Option.isSome))).Eqv (Mat.blockDiag ((l.map available).map (·.1.noise)))
  | [], _ => ⟨rfl, rfl, fun i hi => by cases hi⟩
  | e :: l, h => by
    obtain ⟨xs, hx, _, h1, h2, h3⟩ := h e (by simp)
    simp only [List.map_cons, Mat.blockDiag, List.flatMap_cons, List.map_append]
    rw [positions_append]
    have e1 : (e.2.map Option.isSome).length = e.1.noise.r := by rw [List.length_map, h3, h1]
    rw [e1]
    refine (dsum_sub2 (h1.trans h2.symm) fun i hi => e1 ▸ positions_lt i hi).trans ?_
    exact dsum_eqv available_noise (blockDiag_available fun e he => h e (by simp [he]))

/-! ## Observations -/

section
variable {G : Dom} {D : PId → ℕ} {ops b : List Op} {m : MId} {n : ℕ}

/-- Observations of one pair are observations of the available part. -/
theorem observe_single (ht : Tells (Dead G) D b) {f : Fdd} {y : Vals} {o : Obs} (hf : FitsV G (f, y))
    (ho : observe (runOps b {}) n f y = some o) : ObsOf ops m [available (f, y)] o := by
  obtain ⟨xs, hx, hc, h1, h2, h3⟩ := hf
  simp only at hx hc h1 h2 h3
  have hs := ObsOf.single (ops := ops) (m := m) (available (f, y)).1 (available (f, y)).2
  rw [show (available (f, y)).1.x = _ from available_x hx] at hs
  unfold observe at ho
  split at ho
  · next hall =>
    cases ho
    have ha := isSome_all hall
    rw [pick_all (by simp [h3] : xs.length = _) ha, ← hx] at hs
    refine hs.eqv (Mat.Eqv.trans ?_ (available_noise (e := (f, y))))
    have := sub2_range f.noise
    rwa [positions_all ha, List.length_map, h3, ← h1, show List.range f.noise.r = List.range f.noise.c by rw [h1, h2]] at *
  · obtain ⟨g, hg, ho⟩ := bind_some ho
    cases ho
    obtain ⟨k, x, hk, htx, hp, hgx, hN⟩ := takeFdd_parts hg
    have hsel := takeX_slim n (ht.kern _ _ hc.alive hk) htx (by rw [hx]; simp [numElements, h3])
    rw [hx] at hsel
    cases hsel with
    | num hlt =>
      rw [Mat.take_eq (by simp [h1, h3]) (by simp [h2, h3])] at hN
      have hN := Option.some.inj hN
      rw [hp, hgx, ← hN, ← pick_entries [] (by simp [h3])]
      exact hs.eqv (available_noise (e := (f, y)))

theorem takeTup_fdds {kern : PId → Option KExpr} (hkern : ∀ p k, ¬ Dead G p → kern p = some k → k.Slim (Dead G)) {n : ℕ} {k : KExpr} :
    ∀ {l : List (Fdd × Vals)} {ys : List Input}, (∀ e ∈ l, FitsV G e) →
    takeTup (takeX kern n k) (inferSize k) (l.map fun e => .fdd e.1.p e.1.x) ((l.flatMap (·.2)).map Option.isSome) = some ys →
    ys = l.map fun e => .fdd e.1.p (available e).1.x
  | [], ys, _, h => by cases h; rfl
  | e :: l, ys, hl, h => by
    obtain ⟨s, hs, h⟩ := bind_some h
    obtain ⟨y, hy, h⟩ := bind_some h
    obtain ⟨ys', hys, h⟩ := bind_some h
    cases h
    obtain ⟨xs, hx, hc, h1, h2, h3⟩ := hl e (by simp)
    have e0 : s = (e.2.map Option.isSome).length := by
      have := Option.some.inj hs
      rw [← this, hx, List.length_map, h3]; rfl
    simp only [List.flatMap_cons, List.map_append] at hy hys
    rw [e0, List.take_left'  rfl] at hy
    rw [e0, List.drop_left' rfl] at hys
    rw [takeTup_fdds hkern (fun e he => hl e (by simp [he])) hys, List.map_cons, List.cons.injEq]
    refine ⟨?_, rfl⟩
    rw [available_x hx]
    cases n with
    | zero => cases hy
    | succ n =>
      cases k with
      | mok m ps =>
        simp only [takeX] at hy
        split at hy
        · obtain ⟨k', hk, hy⟩ := bind_some hy
          obtain ⟨y', hy', hy⟩ := bind_some hy
          cases hy
          have hsel := takeX_slim n (hkern _ _ hc.alive hk) hy' (by rw [hx]; simp [numElements, h3])
          rw [hx] at hsel
          cases hsel with
          | num hlt => rw [← pick_entries [] (by simp [h3])]
        · cases hy
      | _ => cases hy

/-- Observations of several pairs are observations of the available parts. -/
theorem observe_joint {b0 : List Op} {ord : List MId} {c : PId} (ht : Tells (Dead G) D b) {l : List (Fdd × Vals)} {o : Obs} (hl : ∀ e ∈ l, FitsV G e)
    (hr : Runs ops b0 (.cross (l.map (·.1.p)) ord) c) (hc : Attached (runOps ops {}) m c) {f : Fdd}
    (hf : combineFdds (runOps b {}) c (l.map (·.1)) = some f)
    (ho : observe (runOps b {}) n f (l.flatMap (·.2)) = some o) : ObsOf ops m (l.map available) o := by
  have hj : ObsOf ops m (l.map available) (jointObs c (l.map available)) := .joint hr hc (by
    intro e he
    obtain ⟨e', he', rfl⟩ := List.mem_map.1 he
    exact List.mem_map.2 ⟨e', he', rfl⟩)
  unfold jointObs at hj
  have hy : (l.map available).flatMap (·.2) = (l.flatMap (·.2)).filterMap id := by
    rw [List.flatMap_map, List.filterMap_flatMap]; rfl
  have hf : f = ⟨c, .tup (l.map fun e => .fdd e.1.p e.1.x), Mat.blockDiag (l.map (·.1.noise))⟩ := by
    obtain ⟨k, _, hf⟩ := bind_some hf
    obtain ⟨_, _, hf⟩ := bind_some hf
    cases hf
    simp only [noiseAsMatrix, List.map_map]
    rfl
  have sizes : (Mat.blockDiag (l.map (·.1.noise))).r = (l.flatMap (·.2)).length ∧
      (Mat.blockDiag (l.map (·.1.noise))).c = (l.flatMap (·.2)).length := by
    clear * - hl
    induction l with
    | nil => exact ⟨rfl, rfl⟩
    | cons e l ih =>
      obtain ⟨i1, i2⟩ := ih fun e he => hl e (by simp [he])
      obtain ⟨xs, _, _, h1, h2, h3⟩ := hl e (by simp)
      simp only [List.map_cons, Mat.blockDiag, Mat.dsum, List.flatMap_cons, List.length_append]
      omega
  have hN := blockDiag_available hl
  rw [hy] at hj
  unfold observe at ho
  split at ho
  · next hall =>
    cases ho
    have ha := isSome_all hall
    have hx : (l.map fun e => Input.fdd e.1.p e.1.x) = (l.map available).map fun e => .fdd e.1.p e.1.x := by
      rw [List.map_map]
      refine List.map_congr_left fun e he => ?_
      obtain ⟨xs, hx, _, _, _, h3⟩ := hl e he
      show Input.fdd e.1.p e.1.x = .fdd e.1.p (available e).1.x
      rw [available_x hx, pick_all (by simp [h3]), hx]
      intro b hb
      refine ha b ?_
      obtain ⟨a, h1, h2⟩ := List.mem_map.1 hb
      exact List.mem_map.2 ⟨a, List.mem_flatMap.2 ⟨e, he, h1⟩, h2⟩
    rw [hf]
    simp only
    rw [hx]
    refine hj.eqv (Mat.Eqv.trans ?_ hN)
    have := sub2_range (Mat.blockDiag (l.map (·.1.noise)))
    rw [sizes.1, sizes.2] at this
    rwa [positions_all ha, List.length_map]
  · obtain ⟨g, hg, ho⟩ := bind_some ho
    cases ho
    obtain ⟨k, x, hk, htx, hp, hgx, hn⟩ := takeFdd_parts hg
    rw [hf] at htx hn hp
    have htx' : ∃ n ys, takeTup (takeX (gpKernel (runOps b {})) n k) (inferSize k) (l.map fun e => .fdd e.1.p e.1.x)
        ((l.flatMap (·.2)).map Option.isSome) = some ys ∧ x = .tup ys := by
      cases n with
      | zero => cases htx
      | succ n =>
        have : (takeTup (takeX (gpKernel (runOps b {})) n k) (inferSize k) (l.map fun e => .fdd e.1.p e.1.x)
          ((l.flatMap (·.2)).map Option.isSome)).bind (fun ys => pure (.tup ys)) = some x := by
          cases k <;> exact htx
        obtain ⟨ys, h1, h2⟩ := bind_some this
        cases h2
        exact ⟨n, ys, h1, rfl⟩
    obtain ⟨n', ys, hys, rfl⟩ := htx'
    have := takeTup_fdds ht.kern hl hys
    rw [Mat.take_eq (by simpa using sizes.1) (by simpa using sizes.2)] at hn
    have hn := Option.some.inj hn
    rw [hp, hgx, ← hn, this]
    have hx : (l.map fun e => Input.fdd e.1.p (available e).1.x) = (l.map available).map fun e => .fdd e.1.p e.1.x := by
      rw [List.map_map]; rfl
    simp only
    rw [hx]
    exact hj.eqv hN

end

/-! ## Notations -/

/-- A pair as an argument. -/
def pairArg (e : Fdd × Vals) : Arg := .tuple [.fdd e.1, .vals e.2]

/-- How pairs of FDDs and data are given to `Obs`: `Obs(fdd, y)` or `Obs((fdd1, y1), ...)`. -/
inductive Written : List Arg → List (Fdd × Vals) → Prop
  | plain (f : Fdd) (y : Vals) : Written [.fdd f, .vals y] [(f, y)]
  | pairs (l : List (Fdd × Vals)) : Written (l.map pairArg) l

/-- After the program `b`, and within `ops`, the measure `m` is conditioned on the pairs `l` in one of the notations of the code,
which makes the measure `m1`: `m.condition(fdd, y)`, `m.condition((fdd1, y1), ...)`, the same with all arguments in one tuple
(`m | (fdd, y)`, `m | ((fdd1, y1), ...)`), or `m.condition(obs)` (`m | obs`) with `obs` made before. -/
inductive Conditioned (ops b : List Op) (m : MId) (l : List (Fdd × Vals)) (m1 : MId) : Prop
  | direct {n : ℕ} {ord : List MId} {as args : List Arg} {os : List Op} (hw : Written as l) (ha : args = as ∨ args = [.tuple as])
      (hc : conditionArgs (runOps b {}) n ord m args = some os) (hp : b ++ os <+: ops) (hm : HasMeasure (runOps b {}) m)
      (h1 : m1 + 1 = (runOps (b ++ os) {}).ms.length) (hl : ∀ e ∈ l, Attached (runOps b {}) m e.1.p)
  | object {b0 : List Op} {n n' : ℕ} {ord ord' : List MId} {as : List Arg} {os os' : List Op} {o : Obs} (hw : Written as l)
      (ho : mkObs (runOps b0 {}) n ord as = some (os, o)) (hb : b0 ++ os <+: b)
      (hc : conditionArgs (runOps b {}) n' ord' m [.obs o] = some os') (hp : b ++ os' <+: ops) (hm : HasMeasure (runOps b {}) m)
      (h1 : m1 + 1 = (runOps (b ++ os') {}).ms.length) (hl : ∀ e ∈ l, Attached (runOps b0 {}) m e.1.p)

section
variable {G : Dom} {D : PId → ℕ} {ops b b' : List Op} {m m1 m2 : MId} {q q' : PId} {l l' : List (Fdd × Vals)}

theorem pairs_mapM (l : List (Fdd × Vals)) : (l.map pairArg).mapM Arg.pair? = some l := by
  induction l with
  | nil => rfl
  | cons e l ih => rw [List.map_cons, List.mapM_cons, ih]; rfl

theorem attached_pre {p : PId} (h : Attached (runOps b {}) m p) (hb : b <+: b') : Attached (runOps b' {}) m p := by
  obtain ⟨t, rfl⟩ := hb
  exact attached_append t h

/-- What `Obs` makes. -/
theorem mkObs_obsOf (ht : Tells (Dead G) D ops) {n : ℕ} {ord : List MId} {as : List Arg} {os : List Op} {o : Obs}
    (hw : Written as l) (ho : mkObs (runOps b {}) n ord as = some (os, o)) (hb : b ++ os <+: ops)
    (hl : ∀ e ∈ l, FitsV G e) (ha : ∀ e ∈ l, Attached (runOps b {}) m e.1.p) : ObsOf ops m (l.map available) o := by
  cases hw with
  | plain f y =>
    obtain ⟨o', ho', h⟩ := bind_some ho
    cases h
    rw [List.append_nil] at hb
    exact observe_single (ht.pre hb) (hl _ (by simp)) ho'
  | pairs l =>
    have ho : (do
        let l ← pairs? (l.map pairArg)
        let (o, f) ← combine (runOps b {}) ord (l.map (·.1))
        pure ([o], ← observe (o.after (runOps b {})) n f (l.flatMap (·.2)))) = some (os, o) := by
      cases l with
      | nil => exact ho
      | cons e l =>
        cases l <;> exact ho
    obtain ⟨l', hl', ho⟩ := bind_some ho
    cases l with
    | nil => cases hl'
    | cons e l =>
    have : l' = e :: l := by
      have h1 := pairs_mapM (e :: l)
      have h2 : ((e :: l).map pairArg).mapM Arg.pair? = some l' := hl'
      rw [h1] at h2
      exact (Option.some.inj h2).symm
    subst this
    obtain ⟨⟨oc, f⟩, hcf, ho⟩ := bind_some ho
    obtain ⟨o', ho', h⟩ := bind_some ho
    cases h
    unfold combine at hcf
    simp only at hcf
    split at hcf
    · cases hcf
    · next hr =>
      obtain ⟨f', hf, h⟩ := bind_some hcf
      cases h
      have e1 : ((e :: l).map (·.1)).map (·.p) = (e :: l).map (·.1.p) := by rw [List.map_map]; rfl
      rw [e1] at hr hf ho' hb
      have hafter : (Op.cross ((e :: l).map (·.1.p)) ord).after (runOps b {}) =
          runOps (b ++ [.cross ((e :: l).map (·.1.p)) ord]) {} := by
        unfold runOps; rw [List.foldl_append]; rfl
      have hat : Attached (runOps (b ++ [.cross ((e :: l).map (·.1.p)) ord]) {}) m (runOps b {}).gps.length := by
        refine ((C32_consistent _).1 _ _).2 ?_
        rw [← hafter]
        refine (C32_result b e.1.p (l.map fun e : Fdd × Vals => e.1.p) (.cross (e.1.p :: l.map fun e : Fdd × Vals => e.1.p) ord) (.inr ⟨ord, rfl⟩) hr m).2 ⟨?_, ?_⟩
        · exact ((C32_consistent _).1 _ _).1 (ha e (by simp))
        · intro q hq
          obtain ⟨e', he', rfl⟩ := List.mem_map.1 hq
          exact ((C32_consistent _).1 _ _).1 (ha e' (by simp [he']))
      rw [hafter] at hf ho'
      refine observe_joint (ht.pre hb) hl (b0 := b) ⟨?_, rfl, m, hat⟩ (attached_pre hat hb) hf ho'
      obtain ⟨t, rfl⟩ := hb
      exact ⟨t, by simp⟩

theorem condition_length {o : Obs} (h : HasMeasure (runOps b {}) m) :
    (runOps (b ++ [.condition m o]) {}).ms.length = (runOps b {}).ms.length + 1 := by
  have hi := Inv.reach b
  obtain ⟨a, ha⟩ : ∃ a, (specOps b {}).ms[m]? = some a := ⟨_, List.getElem?_eq_getElem (by rw [← hi.rel.len]; exact h)⟩
  have hs : specOps (b ++ [.condition m o]) {} = (specOps b {}).cond m a o := by
    rw [specOps_append]; exact condition_spec ha o
  have h1 := (Inv.reach (b ++ [.condition m o])).rel.len
  rw [h1, hi.rel.len]
  rw [hs]
  simp [AWorld.cond]

theorem hasMeasure_append (t : List Op) (h : HasMeasure (runOps b {}) m) : HasMeasure (runOps (b ++ t) {}) m := by
  unfold HasMeasure at *
  rw [(Inv.reach b).rel.len] at h
  rw [(Inv.reach (b ++ t)).rel.len]
  obtain ⟨a, ha, _⟩ := ops_grow b t (List.getElem?_eq_getElem h)
  exact (List.getElem?_eq_some_iff.1 ha).1

/-- In all notations, the measure is conditioned on observations of the available parts of the pairs. -/
theorem Conditioned.gives (h : Conditioned ops b m l m1) (ht : Tells (Dead G) D ops) (hl : ∀ e ∈ l, FitsV G e) :
    ∃ bq o, b <+: bq ∧ Gives ops bq m o m1 ∧ ObsOf ops m (l.map available) o ∧
      ∀ e ∈ l, Attached (runOps bq {}) m e.1.p := by
  cases h with
  | @direct n ord as args os hw ha hc hp hm h1 ha' =>
    -- the arguments are given to `Obs`, possibly after unpacking one tuple
    have key : ∃ as' os' o, Written as' l ∧ mkObs (runOps b {}) n ord as' = some (os', o) ∧ os = os' ++ [.condition m o] := by
      rcases ha with rfl | rfl
      · cases hw with
        | plain f y =>
          obtain ⟨⟨os', o⟩, g1, h2⟩ := bind_some hc
          cases h2
          exact ⟨_, _, _, .plain f y, g1, rfl⟩
        | pairs l =>
          match l with
          | [] => cases hc
          | [(f, y)] =>
            obtain ⟨⟨os', o⟩, g1, h2⟩ := bind_some hc
            cases h2
            exact ⟨_, _, _, .plain f y, g1, rfl⟩
          | e :: e' :: l =>
            obtain ⟨⟨os', o⟩, g1, h2⟩ := bind_some hc
            cases h2
            exact ⟨_, _, _, .pairs (e :: e' :: l), g1, rfl⟩
      · obtain ⟨⟨os', o⟩, g1, h2⟩ := bind_some hc
        cases h2
        exact ⟨_, _, _, hw, g1, rfl⟩
    obtain ⟨as', os', o, hw', ho, rfl⟩ := key
    rw [← List.append_assoc] at hp h1
    have hp' : b ++ os' <+: ops := (List.prefix_append _ _).trans hp
    have hm' := hasMeasure_append os' hm
    refine ⟨b ++ os', o, List.prefix_append _ _, ⟨?_, hm', ?_⟩, mkObs_obsOf ht hw' ho hp' hl ha',
      fun e he => attached_append _ (ha' e he)⟩
    · obtain ⟨t, rfl⟩ := hp
      exact ⟨t, by simp⟩
    · rw [condition_length hm'] at h1; omega
  | @object b0 n n' ord ord' as os os' o hw ho hb hc hp hm h1 ha' =>
    cases hc
    refine ⟨b, o, List.prefix_rfl, ⟨?_, hm, ?_⟩,
      mkObs_obsOf ht hw ho (hb.trans ((List.prefix_append _ _).trans hp)) hl ha',
      fun e he => attached_pre (ha' e he) ((List.prefix_append _ _).trans hb)⟩
    · obtain ⟨t, rfl⟩ := hp
      exact ⟨t, by simp⟩
    · rw [condition_length hm] at h1; omega

/-- **C25.** In regular programs: whatever the notations, measures conditioned on pairs with the same available parts, in any
order, have means and kernels that return the same. -/
theorem C25_regular (h : Regular G ops) (ht : Tells (Dead G) D ops) (c1 : Conditioned ops b m l m1) (c2 : Conditioned ops b' m l' m2)
    (hl : ∀ e ∈ l, FitsV G e) (hl' : ∀ e ∈ l', FitsV G e) (hp : (l.map available).Perm (l'.map available))
    (hq : Attached (runOps b {}) m q) (kq : Attached (runOps b' {}) m q)
    (hq' : Attached (runOps b {}) m q') (kq' : Attached (runOps b' {}) m q') (cq : Rows (G q) xs)
    (cq' : Rows (G q') ys) :
    (∀ v, MeanCall (runOps ops {}) m1 q (.num xs) v ↔ MeanCall (runOps ops {}) m2 q (.num xs) v) ∧
    ∃ A A', KernelCall (runOps ops {}) m1 q q' (.num xs) (.num ys) A ∧ KernelCall (runOps ops {}) m2 q q' (.num xs) (.num ys) A' ∧
      A.Eqv A' := by
  obtain ⟨b1, o1, p1, g1, ho1, ha1⟩ := c1.gives ht hl
  obtain ⟨b2, o2, p2, g2, ho2, ha2⟩ := c2.gives ht hl'
  have fits : ∀ {l : List (Fdd × Vals)}, (∀ e ∈ l, FitsV G e) → ∀ e ∈ l.map available, Fits G e := by
    intro l hl e he
    obtain ⟨e', he', rfl⟩ := List.mem_map.1 he
    exact (hl e' he').fits
  have att : ∀ {b : List Op} {l : List (Fdd × Vals)}, (∀ e ∈ l, Attached (runOps b {}) m e.1.p) → ∀ e ∈ l.map available, Attached (runOps b {}) m e.1.p := by
    intro b l ha e he
    obtain ⟨e', he', rfl⟩ := List.mem_map.1 he
    exact ha e' he'
  by_cases hn : ∃ e ∈ l.map available, numElements e.1.x ≠ 0
  · exact C19_regular h g1 g2 hp ho1 ho2 (fits hl) hn (att ha1) (attached_pre hq p1) (attached_pre kq p2)
      (attached_pre hq' p1) (attached_pre kq' p2) cq cq'
  · -- everything is missing
    have prior : ∀ {l : List (Fdd × Vals)} {b o m1}, Gives ops b m o m1 → ObsOf ops m (l.map available) o →
        (∀ e ∈ l, FitsV G e) → (∀ e ∈ l, Attached (runOps b {}) m e.1.p) → (∀ e ∈ l.map available, numElements e.1.x = 0) →
        (reading ops).S m1 = (reading ops).S m := by
      intro l b o m1 g ho hl ha h0
      obtain ⟨zss, hz⟩ := h.blocks (fits hl) fun e he => g.attached_prior (att ha e he)
      obtain ⟨p, x, noise, y, rfl, _, hx, _⟩ := ho.observes h.reads hz
      rcases (g.law h.reads).2 with ⟨_, hS⟩ | ⟨hne, _⟩
      · exact hS
      · exfalso
        rw [hx] at hne
        refine hne (List.sum_eq_zero fun s hs => ?_)
        obtain ⟨e, he, rfl⟩ := List.mem_map.1 hs
        exact h0 e he
    have h0 : ∀ e ∈ l.map available, numElements e.1.x = 0 := fun e he => by
      by_contra hc
      exact hn ⟨e, he, hc⟩
    refine h.same (b := b) (b' := b') (m := m) (((prior g1 ho1 hl ha1 h0).trans (prior g2 ho2 hl' ha2 fun e he => h0 e (hp.mem_iff.2 he)).symm))
      (fun q hq kq => ?_) hq kq hq' kq' cq cq'
    exact ⟨g1.attached (attached_pre hq p1), g2.attached (attached_pre kq p2), by
      rw [(g1.law h.reads).1 q (attached_pre hq p1), (g2.law h.reads).1 q (attached_pre kq p2)]⟩

/-- **C24.** In regular programs, all notations for conditioning on the same pairs give means and kernels that return the
same. -/
theorem C24_regular (h : Regular G ops) (ht : Tells (Dead G) D ops) (c1 : Conditioned ops b m l m1) (c2 : Conditioned ops b' m l m2)
    (hl : ∀ e ∈ l, FitsV G e)
    (hq : Attached (runOps b {}) m q) (kq : Attached (runOps b' {}) m q)
    (hq' : Attached (runOps b {}) m q') (kq' : Attached (runOps b' {}) m q') (cq : Rows (G q) xs)
    (cq' : Rows (G q') ys) :
    (∀ v, MeanCall (runOps ops {}) m1 q (.num xs) v ↔ MeanCall (runOps ops {}) m2 q (.num xs) v) ∧
    ∃ A A', KernelCall (runOps ops {}) m1 q q' (.num xs) (.num ys) A ∧ KernelCall (runOps ops {}) m2 q q' (.num xs) (.num ys) A' ∧
      A.Eqv A' :=
  C25_regular h ht c1 c2 hl hl (.refl _) hq kq hq' kq' cq cq'

end

/-! ## Notations that do the same by definition, and conditioning through a process -/

/-- **C24.** `m | (fdd, y)`, `m.condition((fdd, y))` and `m.condition(fdd, y)` do exactly the same to the graph, and so do `m | ((fdd1, y1), ...)`
and `m.condition((fdd1, y1), ...)` with at least two pairs. -/
theorem C24_notations (w : World) (n : ℕ) (ord : List MId) (m : MId) (f : Fdd) (y : Vals) (e e' : Fdd × Vals) (l : List (Fdd × Vals)) :
    orArg w n ord m (.tuple [.fdd f, .vals y]) = conditionArgs w n ord m [.fdd f, .vals y] ∧
    conditionArgs w n ord m [.tuple [.fdd f, .vals y]] = conditionArgs w n ord m [.fdd f, .vals y] ∧
    orArg w n ord m (.tuple ((e :: e' :: l).map pairArg)) = conditionArgs w n ord m ((e :: e' :: l).map pairArg) :=
  ⟨rfl, rfl, rfl⟩

section
variable {b : List Op} {m : MId} {p : PId} {obs : Obs}

/-- **C24.** `p | obs` does to the graph what conditioning the measure of `p`, and then applying the posterior to `p`, does. -/
theorem C24_gp_state (hm : gpMeasure (runOps b {}) p = some m) :
    stateAfter (gpCondition p obs (runOps b {})) = runOps (b ++ [.condition m obs, .call (runOps b {}).ms.length p]) {} := by
  have hi := Inv.reach b
  have hp : primary p (runOps b {}) = .ok m (runOps b {}) := by
    unfold gpMeasure groups at hm
    cases hg : (runOps b {}).gps[p]? with
    | none => simp [hg] at hm
    | some g =>
      rw [hg] at hm
      cases g with
      | nil => simp at hm
      | cons a g =>
        cases hm
        show EStateM.bind (measuresOf p) _ _ = _
        simp only [EStateM.bind, measuresOf, hg]
        rfl
  have hb : gpCondition p obs (runOps b {}) = EStateM.bind (condition m obs) (fun post => callGP post p) (runOps b {}) := by
    show EStateM.bind (primary p) _ _ = _
    simp only [EStateM.bind, hp]
    rfl
  have hr : runOps (b ++ [.condition m obs, .call (runOps b {}).ms.length p]) {} =
      (Op.call (runOps b {}).ms.length p).after ((Op.condition m obs).after (runOps b {})) := by
    simp only [runOps, List.foldl_append, List.foldl_cons, List.foldl_nil]
  rw [hr, hb]
  have hc : (Op.condition m obs).after (runOps b {}) = stateAfter (condition m obs (runOps b {})) := by
    unfold Op.after Op.run
    simp only [Bind.bind, EStateM.bind]
    cases condition m obs (runOps b {}) <;> rfl
  have hg : ∀ k w, (Op.call k p).after w = stateAfter (callGP k p w) := by
    intro k w
    unfold Op.after Op.run
    simp only [Bind.bind, EStateM.bind]
    cases callGP k p w <;> rfl
  rw [hg, hc]
  rcases sim_condition m obs _ _ hi.rel hi.wf trivial with ⟨v, w1, L', h1, h2, r, wf, ext, hv⟩ | ⟨e, w1, L', h1, h2, r, wf, ext⟩
  · simp only [EStateM.bind, h1]
    rw [hv.1, hi.rel.len]
    rfl
  · exfalso
    have hat : Attached (runOps b {}) m p := by
      refine (hi.attached.2 ?_)
      unfold gpMeasure groups at hm
      cases hg : (runOps b {}).gps[p]? with
      | none => simp [hg] at hm
      | some g =>
        rw [hg] at hm
        exact hi.wf.gps_mem p g (by rw [← hi.rel.gps]; exact hg) m (List.mem_of_mem_head? hm)
    obtain ⟨a, ha, _⟩ := hi.attached.1 hat
    simp [aCondition, ha] at h2

theorem condition_gps_length (b : List Op) (m : MId) (obs : Obs) :
    (runOps (b ++ [.condition m obs]) {}).gps.length = (runOps b {}).gps.length := by
  rw [(Inv.reach (b ++ [Op.condition m obs])).rel.gps, (Inv.reach b).rel.gps]
  have hs : specOps (b ++ [.condition m obs]) {} = (Op.condition m obs).specAfter (specOps b {}) := specOps_append ..
  rw [hs]
  cases ha : (specOps b {}).ms[m]? with
  | none => rw [condition_spec_none ha]
  | some a =>
    rw [condition_spec ha]
    show List.length (a.ps.foldl (fun g p => g.modify p (· ++ [(specOps b {}).ms.length])) (specOps b {}).gps) = _
    generalize (specOps b {}).gps = g
    generalize a.ps = l
    induction l generalizing g with
    | nil => rfl
    | cons p l ih => rw [List.foldl_cons, ih, List.length_modify]

/-- **C24.** What `p | obs` returns: a process with the mean and kernel of `p` in the posterior, and with the kernels of `p` with all
processes of the posterior. -/
theorem C24_gp {r : PId} (hm : gpMeasure (runOps b {}) p = some m) (hr : r = (runOps b {}).gps.length)
    (hat : Attached (stateAfter (gpCondition p obs (runOps b {}))) (runOps b {}).ms.length r)
    (hp : p ∈ members (runOps (b ++ [.condition m obs]) {}) (runOps b {}).ms.length) :
    let w := stateAfter (gpCondition p obs (runOps b {}))
    let post := (runOps b {}).ms.length
    meanAt w post r = meanAt w post p ∧ kernelAt w post r r = kernelAt w post p p ∧
    ∀ q ∈ members (runOps (b ++ [.condition m obs]) {}) post, kernelAt w post r q = kernelAt w post p q ∧
      kernelAt w post q r = kernelAt w post q p := by
  intro w post
  have hs : w = runOps ((b ++ [.condition m obs]) ++ [.call post p]) {} := by
    rw [List.append_assoc]; exact C24_gp_state hm
  rw [show stateAfter (gpCondition p obs (runOps b {})) = w from rfl, hs] at hat
  have hk : r = (runOps (b ++ [.condition m obs]) {}).gps.length := by
    rw [hr]
    exact (condition_gps_length b m obs).symm
  obtain ⟨h1, h2, _, _, h3⟩ := C33_table (ops := (b ++ [.condition m obs]) ++ [.call post p]) ⟨⟨[], rfl⟩, hk, post, hat⟩ hat hp
  rw [hs]
  exact ⟨h1, h2, h3⟩

end

/-! ## Examples -/

/-- The rows and columns of noise at the given positions. -/
noncomputable def rows (A : Mat) (is : List ℕ) : Mat := ⟨is.length, is.length, fun i j => A.e (is.getD i 0) (is.getD j 0)⟩

/-- Values at three points, of which the second is missing. -/
noncomputable def gappy : Fdd × Vals := (⟨0, .num [[0], [1], [2]], eye 3⟩, [some 1, none, some 3])

/-- The available values. -/
noncomputable def dense : Fdd × Vals := (⟨0, .num [[0], [2]], rows (eye 3) [0, 2]⟩, [some 1, some 3])

/-- A value of another process. -/
noncomputable def single : Fdd × Vals := (⟨1, .num [[5]], eye 1⟩, [some 4])

/-- Two GPs, and observations of the available values, of both processes with the missing value, and of both processes in the other order
without the missing value. The prior is conditioned on values with a missing one, and on these observations. -/
noncomputable def notes : List Op :=
  [.gp .zero affine none none,
   .gp .zero affine (some 0) none,
   .cross [0] [0],
   .cross [0, 1] [0],
   .cross [1, 0] [0],
   .condition 0 (.exact 0 (.num [[0], [2]]) (rows (eye 3) [0, 2]) [1, 3]),
   .condition 0 (.exact 2 (.tup [.fdd 0 (.num [[0], [2]])]) (Mat.blockDiag [rows (eye 3) [0, 2]]) [1, 3]),
   .condition 0 (.exact 3 (.tup [.fdd 0 (.num [[0], [2]]), .fdd 1 (.num [[5]])]) (rows (Mat.blockDiag [eye 3, eye 1]) [0, 2, 3]) [1, 3, 4]),
   .condition 0 (.exact 4 (.tup [.fdd 1 (.num [[5]]), .fdd 0 (.num [[0], [2]])]) (Mat.blockDiag [eye 1, rows (eye 3) [0, 2]]) [4, 1, 3])]

/-- The cross processes of `notes`. -/
def notesC (p : PId) : Prop := p = 2 ∨ p = 3 ∨ p = 4

instance : DecidablePred notesC := fun _ => inferInstanceAs (Decidable (_ ∨ _ ∨ _))

/-- `m.condition(fdd, y)` with a missing value. -/
theorem notes_one : Conditioned notes (notes.take 5) 0 [gappy] 1 :=
  .direct (n := 3) (ord := []) (.plain gappy.1 gappy.2) (.inl rfl) rfl ⟨notes.drop 6, rfl⟩ (by decide : 0 < 1) rfl
    (fun e he => by cases List.mem_singleton.1 he; exact attached_iff.2 rfl)

/-- `m | Obs((fdd, y))` without it. -/
theorem notes_two : Conditioned notes (notes.take 6) 0 [dense] 2 :=
  .object (b0 := notes.take 2) (n := 3) (n' := 3) (ord := [0]) (ord' := []) (.pairs [dense]) rfl ⟨(notes.take 6).drop 3, rfl⟩ rfl
    ⟨notes.drop 7, rfl⟩ (by decide : 0 < 2) rfl (fun e he => by cases List.mem_singleton.1 he; exact attached_iff.2 rfl)

/-- `m | Obs((fdd1, y1), (fdd2, y2))` with a missing value. -/
theorem notes_three : Conditioned notes (notes.take 7) 0 [gappy, single] 3 :=
  .object (b0 := notes.take 3) (n := 3) (n' := 3) (ord := [0]) (ord' := []) (.pairs [gappy, single]) rfl ⟨(notes.take 7).drop 4, rfl⟩ rfl
    ⟨notes.drop 8, rfl⟩ (by decide : 0 < 3) rfl (fun e he => by
      simp only [List.mem_cons, List.not_mem_nil, or_false] at he
      rcases he with rfl | rfl
      · exact attached_iff.2 rfl
      · exact attached_iff.2 rfl)

/-- `m | Obs((fdd2, y2), (fdd1, y1))` without it. -/
theorem notes_four : Conditioned notes (notes.take 8) 0 [single, dense] 4 :=
  .object (b0 := notes.take 4) (n := 3) (n' := 3) (ord := [0]) (ord' := []) (.pairs [single, dense]) rfl ⟨(notes.take 8).drop 5, rfl⟩ rfl
    ⟨notes.drop 9, rfl⟩ (by decide : 0 < 4) rfl (fun e he => by
      simp only [List.mem_cons, List.not_mem_nil, or_false] at he
      rcases he with rfl | rfl
      · exact attached_iff.2 rfl
      · exact attached_iff.2 rfl)

theorem notes_fits : FitsV (off notesC) gappy ∧ FitsV (off notesC) dense ∧ FitsV (off notesC) single :=
  ⟨⟨_, rfl, rows_off (by decide), rfl, rfl, rfl⟩, ⟨_, rfl, rows_off (by decide), rfl, rfl, rfl⟩, ⟨_, rfl, rows_off (by decide), rfl, rfl, rfl⟩⟩

theorem gappy_available : available gappy = available dense := by
  have : ∀ i j, i < 2 → j < 2 → (eye 3).e ([0, 2].getD i 0) ([0, 2].getD j 0) = (rows (eye 3) [0, 2]).e ([0, 1].getD i 0) ([0, 1].getD j 0) := by
    intro i j hi hj
    interval_cases i <;> interval_cases j <;> rfl
  have hN : (available gappy).1.noise = (available dense).1.noise := by
    show Mat.mk 2 2 _ = Mat.mk 2 2 _
    congr 1
    funext i j
    by_cases h : i < 2 ∧ j < 2
    · exact (if_pos h).trans ((this i j h.1 h.2).trans (if_pos h).symm)
    · exact (if_neg h).trans (if_neg h).symm
  show (Fdd.mk 0 (.num [[0], [2]]) (available gappy).1.noise, [1, 3]) = (Fdd.mk 0 (.num [[0], [2]]) (available dense).1.noise, [1, 3])
  rw [hN]

theorem notes_noisy : Noisy notes := by
  have key : ∀ {n : ℕ} {A : Mat}, (∀ i j : Fin n, A.e i j = if i = j then 1 else 0) → (A.sq n).PosDef := by
    intro n A h
    have : A.sq n = 1 := by
      ext i j
      show A.e i j = _
      rw [h, one_apply]
    rw [this]
    exact .one
  intro m obs h
  simp only [notes, List.mem_cons, List.not_mem_nil, or_false, reduceCtorEq, false_or,
    Op.condition.injEq] at h
  rcases h with ⟨_, rfl⟩ | ⟨_, rfl⟩ | ⟨_, rfl⟩ | ⟨_, rfl⟩
  · refine key (n := 2) fun i j => ?_
    fin_cases i <;> fin_cases j <;> simp [rows, eye]
  · refine key (n := 2) fun i j => ?_
    fin_cases i <;> fin_cases j <;> simp [rows, eye, Mat.blockDiag, Mat.dsum]
  · refine key (n := 3) fun i j => ?_
    fin_cases i <;> fin_cases j <;> simp [rows, eye, Mat.blockDiag, Mat.dsum]
  · refine key (n := 3) fun i j => ?_
    fin_cases i <;> fin_cases j <;> simp [rows, eye, Mat.blockDiag, Mat.dsum]

theorem notes_regular : Regular (off notesC) notes := by
  refine .of_noisy_off ⟨?_, ?_, ?_, fun m obs h => (notes_noisy m obs h).psd, smooth_of (by simp [notes])⟩ notes_noisy
    (.of_exact (by simp [notes]))
  · have hs := affine_psd
    intro o ho
    simp only [notes, List.mem_cons, List.not_mem_nil, or_false] at ho
    rcases ho with rfl | rfl | rfl | rfl | rfl | rfl | rfl | rfl | rfl
    all_goals first
      | exact ⟨trivial, trivial, hs⟩
      | trivial
      | (intro h; cases h)
  · refine splits (ops := notes) (P := fun before o => ∀ m, ∀ e ∈ o.written (runOps before {}).gps.length m,
      ¬ notesC e.1 → e.2.TotalOff notesC) ⟨?_, ?_, ?_, ?_, ?_, ?_, ?_, ?_, ?_, trivial⟩
    all_goals
      intro m e he
      first
        | exact (List.not_mem_nil he).elim
        | have he := List.mem_singleton.1 he
          subst he
          first
            | exact fun h => (h (.inl rfl)).elim
            | exact fun h => (h (.inr (.inl rfl))).elim
            | exact fun h => (h (.inr (.inr rfl))).elim
            | exact fun _ => ⟨trivial, trivial⟩
  · intro before m obs after e hm
    refine splits (ops := notes) (P := fun before o => ∀ m obs, o = .condition m obs → ObsFitsOff notesC before m obs) ⟨?_, ?_, ?_, ?_, ?_, ?_, ?_, ?_, ?_, trivial⟩
      before _ after e m obs rfl
    all_goals
      intro m obs e
      first
        | (exfalso; cases e; done)
        | cases e
    · exact ⟨rfl, rfl, rfl, .inl ⟨⟨_, rfl⟩, attached_iff.2 rfl, by decide⟩⟩
    · refine ⟨rfl, rfl, rfl, .inr ⟨notes.take 2, [0], [0], (notes.take 6).drop 3, rfl, rfl,
        attached_iff.2 rfl, ?_, by decide, ?_⟩⟩
      · refine ⟨_, by simp, rfl, fun a ha => ?_⟩
        simp only [List.mem_cons, List.not_mem_nil, or_false] at ha
        rcases ha with rfl
        exact ⟨0, by simp, _, rfl⟩
      · intro i hi hne
        have : i ∈ [0, 1, 2, 3, 4] := hi
        have hne : ¬ (i = 2 ∨ i = 3 ∨ i = 4) := hne
        show i ∈ [0, 1]
        simp only [List.mem_cons, List.not_mem_nil, or_false] at this ⊢
        omega
    · refine ⟨rfl, rfl, rfl, .inr ⟨notes.take 3, [0, 1], [0], (notes.take 7).drop 4, rfl, rfl,
        attached_iff.2 rfl, ?_, by decide, ?_⟩⟩
      · refine ⟨_, by simp, rfl, fun a ha => ?_⟩
        simp only [List.mem_cons, List.not_mem_nil, or_false] at ha
        rcases ha with rfl | rfl
        · exact ⟨0, by simp, _, rfl⟩
        · exact ⟨1, by simp, _, rfl⟩
      · intro i hi hne
        have : i ∈ [0, 1, 2, 3, 4] := hi
        have hne : ¬ (i = 2 ∨ i = 3 ∨ i = 4) := hne
        show i ∈ [0, 1, 2]
        simp only [List.mem_cons, List.not_mem_nil, or_false] at this ⊢
        omega
    · refine ⟨rfl, rfl, rfl, .inr ⟨notes.take 4, [1, 0], [0], (notes.take 8).drop 5, rfl, rfl,
        attached_iff.2 rfl, ?_, by decide, ?_⟩⟩
      · refine ⟨_, by simp, rfl, fun a ha => ?_⟩
        simp only [List.mem_cons, List.not_mem_nil, or_false] at ha
        rcases ha with rfl | rfl
        · exact ⟨1, by simp, _, rfl⟩
        · exact ⟨0, by simp, _, rfl⟩
      · intro i hi hne
        have : i ∈ [0, 1, 2, 3, 4] := hi
        have hne : ¬ (i = 2 ∨ i = 3 ∨ i = 4) := hne
        show i ∈ [0, 1, 2, 3]
        simp only [List.mem_cons, List.not_mem_nil, or_false] at this ⊢
        omega

theorem notes_tells : Tells (Dead (off notesC)) (fun p => if p = 2 then 1 else 2) notes := by
  rw [dead_off]
  refine splits (ops := notes) (P := fun before o => ∀ m, ∀ e ∈ o.written (runOps before {}).gps.length m,
      Sorted notesC e ∧ Counts (fun p => if p = 2 then 1 else 2) e) ⟨?_, ?_, ?_, ?_, ?_, ?_, ?_, ?_, ?_, trivial⟩
  all_goals
    intro m e he
    first
      | exact (List.not_mem_nil he).elim
      | have he := List.mem_singleton.1 he
        subst he
        first
          | exact ⟨⟨fun _ => ⟨trivial, trivial⟩, fun h => (by rcases h with h | h | h <;> cases h)⟩, trivial⟩
          | exact ⟨⟨fun h => (h (.inl rfl)).elim, fun _ => ⟨by simp, by decide⟩⟩, rfl⟩
          | exact ⟨⟨fun h => (h (.inr (.inl rfl))).elim, fun _ => ⟨by simp, by decide⟩⟩, rfl⟩
          | exact ⟨⟨fun h => (h (.inr (.inr rfl))).elim, fun _ => ⟨by simp, by decide⟩⟩, rfl⟩

/-- C25 for `notes`, with one process: values with a missing one, and the available values in another notation. -/
example (xs ys : List Pt) :
    (∀ v, MeanCall (runOps notes {}) 1 1 (.num xs) v ↔ MeanCall (runOps notes {}) 2 1 (.num xs) v) ∧
    ∃ A A', KernelCall (runOps notes {}) 1 0 1 (.num xs) (.num ys) A ∧ KernelCall (runOps notes {}) 2 0 1 (.num xs) (.num ys) A' ∧
      A.Eqv A' := by
  obtain ⟨h1, k⟩ := C25_regular (q := 1) (q' := 1) notes_regular notes_tells notes_one notes_two
    (by simpa using notes_fits.1) (by simpa using notes_fits.2.1) (by simp [gappy_available])
    (attached_iff.2 rfl) (attached_iff.2 rfl) (attached_iff.2 rfl) (attached_iff.2 rfl) (xs := xs) (ys := ys) (rows_off (by decide))
    (rows_off (by decide))
  exact ⟨h1, (C25_regular (q := 0) (q' := 1) notes_regular notes_tells notes_one notes_two
    (by simpa using notes_fits.1) (by simpa using notes_fits.2.1) (by simp [gappy_available])
    (attached_iff.2 rfl) (attached_iff.2 rfl) (attached_iff.2 rfl) (attached_iff.2 rfl) (xs := xs) (ys := ys) (rows_off (by decide))
    (rows_off (by decide))).2⟩

/-- C25 for `notes`, with both processes, in different orders. -/
example (xs : List Pt) (v : List ℝ) : MeanCall (runOps notes {}) 3 1 (.num xs) v ↔ MeanCall (runOps notes {}) 4 1 (.num xs) v := by
  refine (C25_regular (q := 1) (q' := 1) notes_regular notes_tells notes_three notes_four ?_ ?_ ?_
    (attached_iff.2 rfl) (attached_iff.2 rfl) (attached_iff.2 rfl) (attached_iff.2 rfl) (xs := xs) (ys := xs) (rows_off (by decide))
    (rows_off (by decide))).1 v
  · simpa using ⟨notes_fits.1, notes_fits.2.2⟩
  · simpa using ⟨notes_fits.2.2, notes_fits.2.1⟩
  · simp only [List.map_cons, List.map_nil, gappy_available]
    exact .swap _ _ _

/-- `f | obs` for `notes`: process 5 is `f` in the posterior, which is measure 5. -/
example : meanAt (stateAfter (gpCondition 0 (.exact 1 (.num [[7]]) (eye 1) [2]) (runOps notes {}))) 5 5 =
    meanAt (stateAfter (gpCondition 0 (.exact 1 (.num [[7]]) (eye 1) [2]) (runOps notes {}))) 5 0 :=
  (C24_gp (b := notes) (m := 0) (p := 0) rfl rfl (attached_iff.2 rfl) (by decide)).1

end Stheno
