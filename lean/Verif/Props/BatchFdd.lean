import Verif.BatchFdd
import Verif.MeasureFns
import Verif.Props.BatchWorld

/-!
# Finite-dimensional distributions at batches of inputs

C73: FDDs at batches of inputs, conditioning on batches of values, log-densities of batches of values and samples are computed at every index of the batch.
-/

namespace Stheno

open Ten Matrix

namespace Bat

variable {d s u : List ℕ} {ops os : List BOp} {ord : List MId} {m : MId} {p q : PId} {x : BInput} {f : BFdd} {fs : List BFdd} {y r : BVals} {w : BWorld} {as : List BArg}

/-! ### FDDs -/

theorem dims_at (d : List ℕ) (k : BKExpr) : dims (k.at' d) = bdims k := by
  induction k <;> simp_all [dims, bdims, BKExpr.at']

mutual
theorem inferSize_at (d : List ℕ) (k : BKExpr) : ∀ x : BInput, inferSize (k.at' d) (x.at' d) = binferSize k x
  | .num t => by
    simp only [BInput.at', inferSize, binferSize, dims_at]
    rcases bdims k with _ | _ | n <;> simp
  | .fdd p x => by simp only [BInput.at', inferSize, binferSize, BInput.size_at]
  | .tup xs => by
    simp only [BInput.at', inferSize, binferSize]
    exact inferSizeL_at d k xs
theorem inferSizeL_at (d : List ℕ) (k : BKExpr) : ∀ xs : List BInput, inferSizeL (k.at' d) (BInput.atL d xs) = binferSizeL k xs
  | [] => rfl
  | x :: xs => by
    simp only [BInput.atL, inferSizeL, binferSizeL, inferSize_at d k x, inferSizeL_at d k xs]
end

theorem gpKernel_at (w : BWorld) (d : List ℕ) (p : PId) : Stheno.gpKernel (w.at' d) p = (gpKernel w p).map (·.at' d) := by
  have e : Stheno.gpMeasure (w.at' d) p = gpMeasure w p := rfl
  unfold Stheno.gpKernel gpKernel
  rw [e]
  cases gpMeasure w p with
  | none => rfl
  | some m => exact (kernelAt_at (Keep.any_W w) d m p p).1

theorem sizes_at (w : BWorld) (d : List ℕ) (p : PId) (x : BInput) :
    ((Stheno.gpKernel (w.at' d) p).bind fun k => inferSize k (x.at' d)) = (gpKernel w p).bind fun k => binferSize k x := by
  rw [gpKernel_at]
  cases gpKernel w p with
  | none => rfl
  | some k => exact inferSize_at d k x

/-- The FDD at the index `d` of the batch. -/
def BFdd.at' (d : List ℕ) (f : BFdd) : Fdd := ⟨f.p, f.x.at' d, f.noise.toMat d⟩

/-- The noise argument at the index `d` of the batch. -/
def noiseAt (d : List ℕ) : Option (Ten ℝ) → NoiseArg
  | none => .none
  | some t =>
    match t.shape with
    | [] => .scalar (t.e [])
    | [k] => .vec ((List.range k).map fun i => t.e [i])
    | _ => .mat (t.toMat d)

/-- **C73.** Noise arguments are at every index the noise arguments at this index: numbers and vectors are the same at all indices, and matrices are at an index the
matrix at this index. -/
theorem C73_noise (a : Option (Ten ℝ)) (n : ℕ) (d : List ℕ) :
    ((noiseTen a n).toMat d).r = (noiseAsMatrix (noiseAt d a) n).r ∧ ((noiseTen a n).toMat d).c = (noiseAsMatrix (noiseAt d a) n).c ∧
      ∀ i < ((noiseTen a n).toMat d).r, ∀ j < ((noiseTen a n).toMat d).c, ((noiseTen a n).toMat d).e i j = (noiseAsMatrix (noiseAt d a) n).e i j := by
  rcases a with _ | t
  · exact ⟨rfl, rfl, fun i _ j _ => rfl⟩
  · match h : t.shape with
    | [] =>
      have e1 : noiseTen (some t) n = fillDiag (t.e []) n := by simp only [noiseTen, h]
      have e2 : noiseAt d (some t) = .scalar (t.e []) := by simp only [noiseAt, h]
      rw [e1, e2]
      refine ⟨rfl, rfl, fun i hi j hj => ?_⟩
      refine (get_of (t := fillDiag (t.e []) n) (s := []) rfl hi hj d).trans ?_
      simp [fillDiag, noiseAsMatrix, eq_comm]
    | [k] =>
      have e1 : noiseTen (some t) n = ⟨[k, k], fun i => if i.headD 0 = i.tail.headD 0 then t.e i.tail else 0⟩ := by simp only [noiseTen, h]
      have e2 : noiseAt d (some t) = .vec ((List.range k).map fun i => t.e [i]) := by simp only [noiseAt, h]
      rw [e1, e2]
      simp only [noiseAsMatrix, List.length_map, List.length_range]
      refine ⟨rfl, rfl, fun i hi j hj => ?_⟩
      have hi : i < k := hi
      refine (get_of (t := (⟨[k, k], fun i => if i.headD 0 = i.tail.headD 0 then t.e i.tail else 0⟩ : Ten ℝ)) (s := []) rfl hi hj d).trans ?_
      simp [clip, eq_comm, List.getD, hi]
    | _ :: _ :: _ =>
      have e1 : noiseTen (some t) n = t := by simp only [noiseTen, h]
      have e2 : noiseAt d (some t) = .mat (t.toMat d) := by simp only [noiseAt, h]
      rw [e1, e2]
      exact ⟨rfl, rfl, fun i _ j _ => rfl⟩

theorem noiseTen_of {t : Ten ℝ} (h : 2 ≤ t.rank) (n : ℕ) : noiseTen (some t) n = t := by
  match e : t.shape with
  | [] => simp [Ten.rank, e] at h
  | [_] => simp [Ten.rank, e] at h
  | _ :: _ :: _ => simp only [noiseTen, e]

theorem noiseTen_rank (a : Option (Ten ℝ)) (n : ℕ) : 2 ≤ (noiseTen a n).rank := by
  rcases a with _ | t
  · exact Nat.le_refl 2
  · match h : t.shape with
    | [] =>
      simp only [noiseTen, h]
      exact Nat.le_refl 2
    | [_] =>
      simp only [noiseTen, h]
      exact Nat.le_refl 2
    | _ :: _ :: _ =>
      simp only [noiseTen, h, Ten.rank]
      simp

theorem mkFdd_eq (w : BWorld) (p : PId) (x : BInput) (a : Option (Ten ℝ)) :
    mkFdd w p x a = ((gpKernel w p).bind fun k => binferSize k x).map fun n => ⟨p, x, noiseTen a n⟩ := by
  unfold mkFdd
  cases gpKernel w p with
  | none => rfl
  | some k => cases h : binferSize k x <;> simp [h]

theorem mkFdd_eq' (w : World) (p : PId) (x : Input) (a : NoiseArg) :
    Stheno.mkFdd w p x a = ((Stheno.gpKernel w p).bind fun k => inferSize k x).map fun n => ⟨p, x, noiseAsMatrix a n⟩ := by
  unfold Stheno.mkFdd
  cases Stheno.gpKernel w p with
  | none => rfl
  | some k => cases h : inferSize k x <;> simp [h]

theorem mkFdd_at (w : BWorld) (d : List ℕ) (p : PId) (x : BInput) {t : Ten ℝ} (h : 2 ≤ t.rank) :
    Stheno.mkFdd (w.at' d) p (x.at' d) (.mat (t.toMat d)) = (mkFdd w p x (some t)).map (·.at' d) := by
  rw [mkFdd_eq, mkFdd_eq', sizes_at, Option.map_map]
  congr 1
  funext n
  simp only [Function.comp, noiseTen_of h]
  rfl

/-- **C73.** Making an FDD at a batch of inputs raises if and only if making it raises at an index, whichever it is. The noise of the FDD is a matrix or a batch of
matrices, and otherwise the FDD is at every index the FDD at this index; for its noise see `C73_noise`. -/
theorem C73_fdd (ops : List BOp) (d : List ℕ) (p : PId) (x : BInput) (a : Option (Ten ℝ)) :
    (mkFdd (runOps ops {}) p x a = none ↔ Stheno.mkFdd (Stheno.runOps (ops.map (·.at' d)) {}) p (x.at' d) (noiseAt d a) = none) ∧
      ∀ f, mkFdd (runOps ops {}) p x a = some f → f.p = p ∧ f.x = x ∧ 2 ≤ f.noise.rank ∧
        ∃ n, f.noise = noiseTen a n ∧ Stheno.mkFdd (Stheno.runOps (ops.map (·.at' d)) {}) p (x.at' d) (noiseAt d a) = some ⟨p, x.at' d, noiseAsMatrix (noiseAt d a) n⟩ := by
  rw [← C72_state, mkFdd_eq, mkFdd_eq', sizes_at]
  refine ⟨by simp, fun f hf => ?_⟩
  obtain ⟨n, hn, rfl⟩ := Option.map_eq_some_iff.1 hf
  exact ⟨rfl, rfl, noiseTen_rank a n, n, rfl, by rw [hn]; rfl⟩

/-! ### Operations -/

theorem raises_at (o : BOp) (w : BWorld) (d : List ℕ) : (o.at' d).raises (w.at' d) = o.raises w := by
  have h := run_at (d := d) (Keep.any_Op o) w (Keep.any_W _)
  unfold BOp.raises Op.raises
  cases e : o.run w with
  | ok a w' =>
    rw [e] at h
    rw [h.2.2]
  | error a w' =>
    rw [e] at h
    rw [h.2]

theorem afters_at (o : BOp) (w : BWorld) (d : List ℕ) : (o.at' d).after (w.at' d) = (o.after w).at' d := (after_at (Keep.any_Op o) (Keep.any_W w)).2.symm

theorem callFdd_at (w : BWorld) (d : List ℕ) (m : MId) {f : BFdd} (h : 2 ≤ f.noise.rank) :
    Stheno.callFdd (w.at' d) m (f.at' d) = (callFdd w m f).map fun r => (r.1.at' d, r.2.at' d) := by
  unfold Stheno.callFdd callFdd
  have e1 : Op.call m (f.at' d).p = (BOp.call m f.p).at' d := rfl
  simp only [e1, raises_at]
  cases (BOp.call m f.p).raises w with
  | some e => rfl
  | none =>
    have e := mkFdd_at ((BOp.call m f.p).after w) d w.gps.length f.x h
    rw [← afters_at] at e
    simp only
    refine (congrArg (fun o => o.bind fun g => some ((BOp.call m f.p).at' d, g)) e).trans ?_
    cases mkFdd ((BOp.call m f.p).after w) w.gps.length f.x (some f.noise) <;> rfl

theorem toMat_two {t : Ten ℝ} (h : t.rank = 2) (d : List ℕ) : t.toMat d = t.toMat [] := by
  unfold Ten.rank at h
  match e : t.shape with
  | [c, r] =>
    unfold toMat
    congr 1
    funext i j
    simp [Ten.get, e, clip]
  | [] | [_] | _ :: _ :: _ :: _ => simp [e] at h

/-- The noises have at least two rows and columns in total. -/
def Wide (fs : List BFdd) : Prop := (Mat.blockDiag (fs.map (·.noise.toMat []))).r ≠ 1 ∧ (Mat.blockDiag (fs.map (·.noise.toMat []))).c ≠ 1

theorem blockDiag_at (h : ∀ f ∈ fs, f.noise.rank = 2) (hw : Wide fs) (d : List ℕ) :
    ∃ t, blockDiagTen (fs.map (·.noise)) = some t ∧ t.rank = 2 ∧ t.toMat d = Mat.blockDiag ((fs.map (·.at' d)).map (·.noise)) := by
  have e : (fs.map (·.at' d)).map (·.noise) = (fs.map (·.noise)).map (·.toMat []) := by
    rw [List.map_map, List.map_map]
    exact List.map_congr_left fun f hf => toMat_two (h f hf) d
  unfold blockDiagTen
  rw [if_pos (by simpa using h)]
  refine ⟨_, rfl, rfl, ?_⟩
  rw [e]
  have e2 : (fs.map (·.noise)).map (·.toMat []) = fs.map (·.noise.toMat []) := by rw [List.map_map]; rfl
  obtain ⟨h1, h2⟩ := hw
  rw [e2]
  generalize Mat.blockDiag (fs.map (·.noise.toMat [])) = A at h1 h2
  obtain ⟨R, C, E⟩ := A
  simp only at h1 h2
  simp [toMat, Ten.get, clip, h1, h2]

theorem combineFdds_at (w : BWorld) (d : List ℕ) (c : PId) (h : ∀ f ∈ fs, f.noise.rank = 2) (hw : Wide fs) :
    Stheno.combineFdds (w.at' d) c (fs.map (·.at' d)) = (combineFdds w c fs).map (·.at' d) := by
  obtain ⟨t, t1, t2, t3⟩ := blockDiag_at h hw d
  unfold Stheno.combineFdds combineFdds
  rw [← t3, t1]
  have e : (Input.tup ((fs.map (·.at' d)).map fun f => Input.fdd f.p f.x)) = (BInput.tup (fs.map fun f => .fdd f.p f.x)).at' d := by
    rw [BInput.at', BInput.atL_eq, List.map_map, List.map_map]
    rfl
  rw [e]
  exact mkFdd_at w d c _ t2.ge

theorem combine_at (w : BWorld) (d : List ℕ) (ord : List MId) (h : ∀ f ∈ fs, f.noise.rank = 2) (hw : Wide fs) :
    Stheno.combine (w.at' d) ord (fs.map (·.at' d)) = (combine w ord fs).map fun r => (r.1.at' d, r.2.at' d) := by
  unfold Stheno.combine combine
  have e1 : Op.cross ((fs.map (·.at' d)).map (·.p)) ord = (BOp.cross (fs.map (·.p)) ord).at' d := by
    rw [List.map_map]
    rfl
  simp only [e1, raises_at]
  cases (BOp.cross (fs.map (·.p)) ord).raises w with
  | some e => rfl
  | none =>
    have e := combineFdds_at ((BOp.cross (fs.map (·.p)) ord).after w) d w.gps.length h hw
    rw [← afters_at] at e
    simp only
    refine (congrArg (fun o => o.bind fun g => some ((BOp.cross (fs.map (·.p)) ord).at' d, g)) e).trans ?_
    cases combineFdds ((BOp.cross (fs.map (·.p)) ord).after w) w.gps.length fs <;> rfl

theorem combine_some {g : BOp × BFdd} (h : combine w ord fs = some g) : (∀ f ∈ fs, f.noise.rank = 2) ∧ 2 ≤ g.2.noise.rank := by
  unfold combine at h
  simp only at h
  split at h
  · cases h
  · obtain ⟨g', h1, h2⟩ := Option.bind_eq_some_iff.1 h
    cases h2
    unfold combineFdds at h1
    obtain ⟨t, t1, t2⟩ := Option.bind_eq_some_iff.1 h1
    rw [mkFdd_eq] at t2
    obtain ⟨n, -, rfl⟩ := Option.map_eq_some_iff.1 t2
    refine ⟨?_, noiseTen_rank _ _⟩
    unfold blockDiagTen at t1
    split at t1
    · next h => simpa using h
    · cases t1

/-! ### Values -/

/-- The values at the index `d` of the batch. -/
def valsAt (d : List ℕ) (y : BVals) : Vals := (List.range y.nrows).map fun i => y.uprank.get (0 :: i :: d)

theorem uprank_uprank {α : Type} (t : Ten α) : t.uprank.uprank = t.uprank := uprank_of (uprank_shape t)

theorem valsAt_uprank (d : List ℕ) (y : BVals) : valsAt d y.uprank = valsAt d y := by
  unfold valsAt nrows
  rw [uprank_uprank]

theorem Whole.get (h : Whole y) (hc : y.ncols = 1) (hu : Ten.Fits y.batch u) (hd : In d u) {i : ℕ} (hi : i < y.nrows) : (y.uprank.get (0 :: i :: d)).isSome := by
  have e := uprank_shape y
  rw [get_of e hi (by omega)]
  refine h _ ?_
  rw [e]
  exact .cons (by omega) (.cons hi (hu.within hd))

theorem filterMap_somes {α β : Type} {g : α → Option β} {g' : α → β} : ∀ {l : List α}, (∀ a ∈ l, g a = some (g' a)) → (l.map g).filterMap id = l.map g'
  | [], _ => rfl
  | a :: l, h => by
    rw [List.map_cons, h a List.mem_cons_self, List.map_cons]
    show g' a :: (l.map g).filterMap id = _
    rw [filterMap_somes fun a ha => h a (List.mem_cons_of_mem _ ha)]

theorem observe_at {o : BObs} (w : World) (n : ℕ) (e : observe f y = some o) (hu : Ten.Fits y.batch u) (hd : In d u) :
    Stheno.observe w n (f.at' d) (valsAt d y) = some (o.at' d) := by
  unfold observe at e
  split at e
  swap
  · cases e
  next h =>
  obtain ⟨hc, hw⟩ := h
  cases e
  have hg := fun i (hi : i ∈ List.range y.nrows) => hw.get hc hu hd (List.mem_range.1 hi)
  unfold Stheno.observe
  rw [if_pos (by simpa [valsAt] using fun i hi => hg i (List.mem_range.2 hi))]
  have e1 : (y.uprank.map (·.getD 0) : Ten ℝ).uprank = y.uprank.map (·.getD 0) := uprank_of (uprank_shape y)
  have e2 : (y.uprank.map (·.getD 0) : Ten ℝ).nrows = y.nrows := by
    unfold nrows
    rw [e1]
    rfl
  show some (Obs.exact _ _ _ _) = some (Obs.exact _ _ _ _)
  rw [e1, e2]
  congr 2
  exact filterMap_somes fun i hi => by
    rw [get_map]
    obtain ⟨a, ha⟩ := Option.isSome_iff_exists.1 (hg i hi)
    rw [ha]
    rfl

theorem valsAt_cat {a b t : BVals} {n n' : ℕ} {s s' : List ℕ} (ha : a.shape = 1 :: n :: s) (hb : b.shape = 1 :: n' :: s') (e : cat a b = some t) (d : List ℕ) :
    s' = s ∧ t.shape = 1 :: (n + n') :: s ∧ valsAt d t = valsAt d a ++ valsAt d b := by
  unfold Ten.cat at e
  rw [ha, hb] at e
  simp only at e
  split at e
  swap
  · cases e
  next hc =>
  obtain ⟨-, rfl⟩ := hc
  cases e
  refine ⟨rfl, rfl, ?_⟩
  unfold valsAt nrows
  rw [uprank_of ha, uprank_of hb, uprank_of (s := s) rfl, ha, hb]
  simp only [List.tail_cons, List.headD_cons, List.range_add, List.map_append, List.map_map]
  congr 1
  · refine List.map_congr_left fun i hi => ?_
    have hi := List.mem_range.1 hi
    rw [get_of ha hi (by omega), get_of (s := s) rfl (by omega) (by omega)]
    simp [hi]
  · refine List.map_congr_left fun i hi => ?_
    have hi := List.mem_range.1 hi
    rw [get_of hb hi (by omega)]
    simp only [Function.comp]
    rw [get_of (s := s) rfl (by omega) (by omega)]
    simp

theorem concat_at (d : List ℕ) : ∀ {ys : List BVals} {t : BVals} {n : ℕ} {s : List ℕ}, concat ys = some t → t.shape = 1 :: n :: s →
    valsAt d t = ys.flatMap (valsAt d) ∧ ∀ y ∈ ys, ∃ n', y.shape = 1 :: n' :: s
  | [], _, _, _, e, _ => by cases e
  | [y], t, n, s, e, h => by
    unfold concat at e
    split at e
    · cases e
      exact ⟨by simp, fun y' hy => by
        obtain rfl := List.mem_singleton.1 hy
        exact ⟨n, h⟩⟩
    · cases e
  | y :: z :: ys, t, n, s, e, h => by
    rw [concat] at e
    swap
    · simp
    obtain ⟨t', t1, t2⟩ := Option.bind_eq_some_iff.1 e
    have hc := t2
    unfold Ten.cat at hc
    split at hc
    swap
    · cases hc
    next c r s1 c' r' s2 h1 h2 =>
    split at hc
    swap
    · cases hc
    next hh =>
    obtain ⟨rfl, rfl⟩ := hh
    cases hc
    cases h
    obtain ⟨-, -, h4⟩ := valsAt_cat h1 h2 t2 d
    obtain ⟨i1, i2⟩ := concat_at d t1 h2
    refine ⟨by rw [h4, i1]; rfl, fun y' hy => ?_⟩
    rcases List.mem_cons.1 hy with rfl | hy
    · exact ⟨_, h1⟩
    · exact i2 y' hy

theorem combineValues_at {ys : List BVals} (e : combineValues ys = some y) (hc : y.ncols = 1) (d : List ℕ) :
    valsAt d y = ys.flatMap (valsAt d) ∧ y.uprank = y ∧ ∀ z ∈ ys, z.ncols = 1 ∧ z.batch = y.batch := by
  have hr : ∀ {l : List BVals} {t : BVals}, (∀ z ∈ l, z.uprank = z) → concat l = some t → t.uprank = t := by
    intro l t hl e
    match l with
    | [] => cases e
    | [z] =>
      unfold concat at e
      split at e
      · cases e
        exact hl _ (List.mem_singleton.2 rfl)
      · cases e
    | z :: z' :: l =>
      rw [concat] at e
      swap
      · simp
      obtain ⟨t', t1, t2⟩ := Option.bind_eq_some_iff.1 e
      unfold Ten.cat at t2
      split at t2
      swap
      · cases t2
      split at t2
      swap
      · cases t2
      cases t2
      exact uprank_of rfl
  unfold combineValues at e
  have hy : y.uprank = y := hr (by simp [uprank_uprank]) e
  have hs := uprank_shape y
  rw [hc, hy] at hs
  obtain ⟨h1, h2⟩ := concat_at d e hs
  refine ⟨?_, hy, fun z hz => ?_⟩
  · rw [h1, List.flatMap_map]
    simp only [valsAt_uprank]
  · obtain ⟨n, hn⟩ := h2 z.uprank (List.mem_map_of_mem hz)
    rw [uprank_shape] at hn
    injection hn with a b
    injection b with b c
    exact ⟨a, c⟩

/-! ### Arguments -/

mutual
/-- The argument at the index `d` of the batch. -/
def BArg.at' (d : List ℕ) : BArg → Arg
  | .obs o => .obs (o.at' d)
  | .fdd f => .fdd (f.at' d)
  | .vals y => .vals (valsAt d y)
  | .tuple as => .tuple (BArg.atL d as)
/-- The elements of a tuple. -/
def BArg.atL (d : List ℕ) : List BArg → List Arg
  | [] => []
  | a :: as => a.at' d :: BArg.atL d as
end

theorem BArg.atL_eq (d : List ℕ) : ∀ as : List BArg, BArg.atL d as = as.map (·.at' d)
  | [] => rfl
  | a :: as => by rw [atL, atL_eq d as]; rfl

/-- The pair at the index `d` of the batch. -/
def pairAt (d : List ℕ) (e : BFdd × BVals) : Fdd × Vals := (e.1.at' d, valsAt d e.2)

/-- A pair as an argument. -/
def bpair (e : BFdd × BVals) : BArg := .tuple [.fdd e.1, .vals e.2]

theorem pair?_some {a : BArg} {e : BFdd × BVals} (h : a.pair? = some e) : a = bpair e := by
  unfold BArg.pair? at h
  split at h
  · cases h
    rfl
  · cases h

theorem pairs?_some {l : List (BFdd × BVals)} (h : pairs? as = some l) : l ≠ [] ∧ as = l.map bpair := by
  have : ∀ {as : List BArg} {l : List (BFdd × BVals)}, as.mapM BArg.pair? = some l → as = l.map bpair := by
    intro as
    induction as with
    | nil =>
      intro l h
      simp only [List.mapM_nil] at h
      cases h
      rfl
    | cons a as ih =>
      intro l h
      rw [List.mapM_cons] at h
      obtain ⟨e, h1, h⟩ := Option.bind_eq_some_iff.1 h
      obtain ⟨l', h2, h⟩ := Option.bind_eq_some_iff.1 h
      cases h
      rw [pair?_some h1, ih h2, List.map_cons]
  unfold pairs? at h
  split at h
  · cases h
  · next h0 =>
    have := this h
    refine ⟨fun e => h0 ?_, this⟩
    rw [this, e]
    rfl

theorem pairs?_map {l : List (Fdd × Vals)} (h : l ≠ []) : Stheno.pairs? (l.map fun e => .tuple [.fdd e.1, .vals e.2]) = some l := by
  have : ∀ l : List (Fdd × Vals), (l.map fun e => Arg.tuple [.fdd e.1, .vals e.2]).mapM Arg.pair? = some l := by
    intro l
    induction l with
    | nil => rfl
    | cons e l ih =>
      rw [List.map_cons, List.mapM_cons, ih]
      rfl
  cases l with
  | nil => exact absurd rfl h
  | cons e l => exact this (e :: l)

theorem bpair_at (d : List ℕ) (l : List (BFdd × BVals)) : (l.map bpair).map (·.at' d) = (l.map (pairAt d)).map fun e => Arg.tuple [.fdd e.1, .vals e.2] := by
  rw [List.map_map, List.map_map]
  rfl

/-- The batch dimensions of values that are observed can be broadcast to `u`, and FDDs that are combined have at least two rows in total. -/
def Fine (u : List ℕ) : List BArg → Prop
  | [.obs _] => True
  | [.fdd _, .vals y] => Ten.Fits y.batch u
  | as => ∀ l, pairs? as = some l → (∀ e ∈ l, Ten.Fits e.2.batch u) ∧ Wide (l.map (·.1))

theorem Fine.pairs {l : List (BFdd × BVals)} (hl : l ≠ []) (h : Fine u (l.map bpair)) (e : pairs? (l.map bpair) = some l) :
    (∀ e ∈ l, Ten.Fits e.2.batch u) ∧ Wide (l.map (·.1)) := by
  match l, hl with
  | e' :: l', _ => exact h _ e

theorem mkObs_at {o : BObs} (w : BWorld) (n : ℕ) (e : mkObs w ord as = some (os, o)) (hf : Fine u as) (hd : In d u) :
    Stheno.mkObs (w.at' d) n ord (as.map (·.at' d)) = some (os.map (·.at' d), o.at' d) := by
  unfold mkObs at e
  split at e
  · next f y =>
    obtain ⟨o', h1, h2⟩ := Option.bind_eq_some_iff.1 e
    cases h2
    have := observe_at (w.at' d) n h1 hf hd
    simp only [List.map_cons, List.map_nil, BArg.at', Stheno.mkObs, this]
    rfl
  · obtain ⟨l, h1, e1⟩ := Option.bind_eq_some_iff.1 e
    obtain ⟨⟨o1, f⟩, h2, e2⟩ := Option.bind_eq_some_iff.1 e1
    obtain ⟨y, h3, e3⟩ := Option.bind_eq_some_iff.1 e2
    obtain ⟨o', h4, e4⟩ := Option.bind_eq_some_iff.1 e3
    clear e e1 e2 e3
    cases e4
    obtain ⟨hl, rfl⟩ := pairs?_some h1
    obtain ⟨f1, f2⟩ := hf.pairs hl h1
    have hy : y.ncols = 1 := by
      unfold observe at h4
      split at h4
      · next h => exact h.1
      · cases h4
    obtain ⟨y1, y2, y3⟩ := combineValues_at h3 hy d
    have hb : Ten.Fits y.batch u := by
      match l, hl with
      | e :: l', _ =>
        rw [← (y3 e.2 (by simp)).2]
        exact f1 e (by simp)
    have c1 := combine_at w d ord (combine_some h2).1 f2
    rw [h2] at c1
    have c2 := observe_at (Op.after (o1.at' d) (w.at' d)) n h4 hb hd
    have l1 : l.map (pairAt d) ≠ [] := by simpa using hl
    have e1 : (l.map (pairAt d)).map (·.1) = (l.map (·.1)).map (·.at' d) := by
      rw [List.map_map, List.map_map]
      rfl
    have e2 : (l.map (pairAt d)).flatMap (·.2) = valsAt d y := by
      rw [y1, List.flatMap_map, List.flatMap_map]
      rfl
    have e3 : Stheno.mkObs (w.at' d) n ord ((l.map bpair).map (·.at' d)) = (do
        let l ← Stheno.pairs? ((l.map bpair).map (·.at' d))
        let (o, f) ← Stheno.combine (w.at' d) ord (l.map (·.1))
        pure ([o], ← Stheno.observe (o.after (w.at' d)) n f (l.flatMap (·.2)))) := by
      match l, hl with
      | e :: l', _ => rfl
    rw [e3, bpair_at, pairs?_map l1]
    simp only [Option.bind_eq_bind, Option.bind_some, e1, c1, Option.map_some, e2, c2]
    rfl

/-- The batch dimensions of values that are observed can be broadcast to `u`, and FDDs that are combined have at least two rows in total, where one tuple is
unpacked once. -/
def Fine' (u : List ℕ) : List BArg → Prop
  | [.tuple as] => Fine u as
  | as => Fine u as

/-- **C73.** Conditioning on values of FDDs at a batch of inputs, in all notations, performs operations that are at every index the operations that are performed
at this index. What these operations do to the state is C72. -/
theorem C73_condition (ops : List BOp) (n : ℕ) (e : conditionArgs (runOps ops {}) ord m as = some os) (hf : Fine' u as) (hd : In d u) :
    Stheno.conditionArgs (Stheno.runOps (ops.map (·.at' d)) {}) n ord m (as.map (·.at' d)) = some (os.map (·.at' d)) := by
  rw [← C72_state]
  unfold conditionArgs at e
  split at e
  · next o =>
    cases e
    rfl
  · next as =>
    obtain ⟨⟨l, o⟩, h1, h2⟩ := Option.bind_eq_some_iff.1 e
    cases h2
    have := mkObs_at (runOps ops {}) n h1 hf hd
    simp only [List.map_cons, List.map_nil, BArg.at', BArg.atL_eq, Stheno.conditionArgs, this, List.map_append]
    rfl
  · next h0 h0' =>
    obtain ⟨⟨l, o⟩, h1, h2⟩ := Option.bind_eq_some_iff.1 e
    cases h2
    have hf : Fine u as := by
      unfold Fine' at hf
      split at hf
      · exact absurd rfl (h0' _)
      · exact hf
    have := mkObs_at (runOps ops {}) n h1 hf hd
    have e3 : Stheno.conditionArgs ((runOps ops {}).at' d) n ord m (as.map (·.at' d)) = (do
        let (l, o) ← Stheno.mkObs ((runOps ops {}).at' d) n ord (as.map (·.at' d))
        pure (l ++ [.condition m o])) := by
      match as with
      | [] => rfl
      | [.obs o] => exact absurd rfl (h0 _)
      | [.tuple as] => exact absurd rfl (h0' _)
      | [.fdd f] => rfl
      | [.vals y] => rfl
      | a :: b :: c => cases a <;> rfl
    rw [e3, this]
    simp only [Option.bind_eq_bind, Option.bind_some, List.map_append]
    rfl

theorem uprank_map {α β : Type} (g : α → β) (t : Ten α) : (t.map g).uprank = t.uprank.map g := by
  match e : t.shape with
  | [] => simp [uprank, Ten.map, e]
  | [_] => simp [uprank, Ten.map, e]
  | _ :: _ :: _ =>
    rw [uprank_of e, uprank_of (t := t.map g) e]

theorem valsAt_some (d : List ℕ) (y : Ten ℝ) : valsAt d (y.map some) = (y.uprank.colList y.nrows d).map some := by
  have e : (y.map some).nrows = y.nrows := by
    unfold nrows
    rw [uprank_map]
    rfl
  unfold valsAt colList
  rw [e, uprank_map, List.map_map]
  rfl

/-- The noises of FDDs are matrices or batches of matrices, as they are made (`C73_fdd`), and FDDs that are combined have at least two rows in total. -/
def Ready : List BArg → Prop
  | [.fdd f, .vals _] => 2 ≤ f.noise.rank
  | [.obs (.exact _ _ noise _)] => 2 ≤ noise.rank
  | as => ∀ l, pairs? as = some l → Wide (l.map (·.1))

theorem Ready.pairs {l : List (BFdd × BVals)} (hl : l ≠ []) (h : Ready (l.map bpair)) (e : pairs? (l.map bpair) = some l) : Wide (l.map (·.1)) := by
  match l, hl with
  | e' :: l', _ => exact h _ e

theorem logpdfArgs_at (w : BWorld) (e : logpdfArgs w ord m as = some (os, f, y)) (ha : Ready as) (hc : y.ncols = 1) (d : List ℕ) :
    Stheno.logpdfArgs (w.at' d) ord m (as.map (·.at' d)) = some (os.map (·.at' d), f.at' d, valsAt d y) := by
  unfold logpdfArgs at e
  split at e
  · next f' y' =>
    obtain ⟨⟨o, f''⟩, h1, h2⟩ := Option.bind_eq_some_iff.1 e
    clear e
    cases h2
    have := callFdd_at w d m (f := f') ha
    rw [h1] at this
    simp only [List.map_cons, List.map_nil, BArg.at', Stheno.logpdfArgs, this, Option.map_some]
    rfl
  · next p x noise y' =>
    obtain ⟨⟨o, f''⟩, h1, h2⟩ := Option.bind_eq_some_iff.1 e
    clear e
    cases h2
    have := callFdd_at w d m (f := ⟨p, x, noise⟩) ha
    rw [h1] at this
    have e : Fdd.mk p (x.at' d) (noise.toMat d) = BFdd.at' d ⟨p, x, noise⟩ := rfl
    simp only [List.map_cons, List.map_nil, BArg.at', BObs.at', Stheno.logpdfArgs, e, this, Option.map_some, valsAt_some]
    rfl
  · obtain ⟨l, h1, e1⟩ := Option.bind_eq_some_iff.1 e
    obtain ⟨⟨o1, f1⟩, h2, e2⟩ := Option.bind_eq_some_iff.1 e1
    obtain ⟨y', h3, e3⟩ := Option.bind_eq_some_iff.1 e2
    obtain ⟨⟨o2, f2⟩, h4, e4⟩ := Option.bind_eq_some_iff.1 e3
    clear e e1 e2 e3
    cases e4
    obtain ⟨hl, rfl⟩ := pairs?_some h1
    obtain ⟨y1, y2, y3⟩ := combineValues_at h3 hc d
    obtain ⟨k1, k2⟩ := combine_some h2
    have c1 := combine_at w d ord k1 (ha.pairs hl h1)
    rw [h2] at c1
    have c2 := callFdd_at (o1.after w) d m k2
    rw [h4, ← afters_at] at c2
    have l1 : l.map (pairAt d) ≠ [] := by simpa using hl
    have e1 : (l.map (pairAt d)).map (·.1) = (l.map (·.1)).map (·.at' d) := by
      rw [List.map_map, List.map_map]
      rfl
    have e2 : (l.map (pairAt d)).flatMap (·.2) = valsAt d y := by
      rw [y1, List.flatMap_map, List.flatMap_map]
      rfl
    have e3 : Stheno.logpdfArgs (w.at' d) ord m ((l.map bpair).map (·.at' d)) = (do
        let l ← Stheno.pairs? ((l.map bpair).map (·.at' d))
        let (o, f) ← Stheno.combine (w.at' d) ord (l.map (·.1))
        let (o', f) ← Stheno.callFdd (o.after (w.at' d)) m f
        pure ([o, o'], f, l.flatMap (·.2))) := by
      match l, hl with
      | e :: l', _ => rfl
    rw [e3, bpair_at, pairs?_map l1]
    simp only [Option.bind_eq_bind, Option.bind_some, e1, c1, Option.map_some, e2, c2]
    rfl

/-- **C73.** Sampling under a measure: the operations, and the FDD that is sampled, are at every index those at this index. How samples of this FDD are taken apart is
`C70_unpack`, with the lengths at the indices. -/
theorem C73_sample (ops : List BOp) (e : sampleArgs (runOps ops {}) ord m fs = some (os, f)) (hw : Wide fs) (d : List ℕ) :
    Stheno.sampleArgs (Stheno.runOps (ops.map (·.at' d)) {}) ord m (fs.map (·.at' d)) = some (os.map (·.at' d), f.at' d) ∧
      ∀ (α : Type) (sample : Ten α), sampleResult fs sample = unpack sample 0 ((fs.map (·.at' d)).map fun f => numElements f.x) := by
  rw [← C72_state]
  obtain ⟨⟨o1, f1⟩, h2, e2⟩ := Option.bind_eq_some_iff.1 e
  obtain ⟨⟨o2, f2⟩, h4, e4⟩ := Option.bind_eq_some_iff.1 e2
  clear e e2
  cases e4
  obtain ⟨k1, k2⟩ := combine_some h2
  have c1 := combine_at (runOps ops {}) d ord k1 hw
  rw [h2] at c1
  have c2 := callFdd_at (o1.after (runOps ops {})) d m k2
  rw [h4, ← afters_at] at c2
  constructor
  · unfold Stheno.sampleArgs
    simp only [Option.bind_eq_bind, Option.bind_some, c1, Option.map_some, c2]
    rfl
  · intro α sample
    unfold sampleResult
    rw [List.map_map]
    congr 1
    exact List.map_congr_left fun f _ => (BInput.size_at d f.x).symm

/-! ### Normals -/

section
variable (h : ∀ o ∈ ops, (Keep.fits u).Op o)
include h

/-- **C73.** The mean and the variance of an FDD at a batch of inputs are at every index those of the FDD at this index. -/
theorem C73_normal {v V : Ten ℝ} (hx : f.x.Fits u) (hn : Ten.Fits f.noise.shape.tail.tail u) (e : FddNormal (runOps ops {}) f v V) :
    ∃ n k c bm bv, v.shape = 1 :: n :: bm ∧ V.shape = c :: k :: bv ∧ Ten.Fits bm u ∧ Ten.Fits bv u ∧ ∀ d, In d u →
      ∃ v' V', Stheno.FddNormal (Stheno.runOps (ops.map (·.at' d)) {}) (f.at' d) v' V' ∧ v'.length = n ∧ V'.r = k ∧ V'.c = c ∧
        (∀ i < n, v'[i]? = some (v.get (0 :: i :: d))) ∧ ∀ i < k, ∀ j < c, V'.e i j = V.get (j :: i :: d) := by
  obtain ⟨μ, K, e1, e2, e3, e4⟩ := e
  obtain ⟨n, bm, h1, h2, h3⟩ := C72_mean h hx e2
  obtain ⟨k, c, bk, h4, h5, h6⟩ := C72_kernel h hx hx e3
  have hN : ∃ c' r' t, f.noise.shape = c' :: r' :: t := by
    unfold bin at e4
    split at e4
    · next h => exact ⟨_, _, _, h⟩
    · cases e4
  obtain ⟨c', r', t, ht⟩ := hN
  rw [ht] at hn
  obtain ⟨rfl, rfl, ⟨bv, hv, hvu⟩, hg⟩ := bin_inv h4 ht e4 h5 hn
  refine ⟨n, r', c', bm, bv, h1, hv, h2, hvu, fun d hd => ?_⟩
  obtain ⟨v', v1, v2, v3⟩ := h3 d hd
  obtain ⟨A, A1, A2, A3, A4⟩ := h6 d hd
  have hm : Stheno.gpMeasure (Stheno.runOps (ops.map (·.at' d)) {}) f.p = some μ := by
    rw [← C72_state]
    exact e1
  have eN : (f.noise.toMat d).r = r' ∧ (f.noise.toMat d).c = c' := by
    unfold toMat
    rw [ht]
    exact ⟨rfl, rfl⟩
  refine ⟨v', ⟨A.r, A.c, fun i j => A.e i j + (f.noise.toMat d).e i j⟩, ⟨μ, A, hm, v1, A1, ?_⟩, v2, A2, A3, v3, fun i hi j hj => ?_⟩
  · unfold Mat.add
    exact if_pos ⟨A2.trans eN.1.symm, A3.trans eN.2.symm⟩
  · rw [hg]
    show A.e i j + f.noise.get (j :: i :: d) = _
    rw [A4 i hi j hj]

/-- **C73.** The diagonal of the variance, as `var_diag` computes it for `marginals`, is at every index computed at this index. -/
theorem C73_diag {v : Ten ℝ} (hx : f.x.Fits u) (hn : Ten.Fits f.noise.shape.tail.tail u) (e : FddDiag (runOps ops {}) f v) :
    ∃ n b, v.shape = n :: b ∧ Ten.Fits b u ∧ ∀ d, In d u → ∃ μ a,
      Stheno.gpMeasure (Stheno.runOps (ops.map (·.at' d)) {}) f.p = some μ ∧ Stheno.ElwiseCall (Stheno.runOps (ops.map (·.at' d)) {}) μ f.p f.p (f.x.at' d) (f.x.at' d) a ∧
        a.length = n ∧ (f.at' d).noise.r = n ∧ (f.at' d).noise.c = n ∧ ∀ i < n, v.get (i :: d) = a.getD i 0 + (f.at' d).noise.e i i := by
  obtain ⟨μ, E, e', N, e1, e2, e3, e4, e5, e6⟩ := e
  obtain ⟨n, b, h1, h2, h3⟩ := C72_elwise h hx hx e2
  obtain ⟨k, t, ht, hNs⟩ : ∃ k t, f.noise.shape = k :: k :: t ∧ N = ⟨k :: t, fun i => f.noise.e (i.headD 0 :: i.headD 0 :: i.tail)⟩ := by
    unfold Ten.diag at e4
    split at e4
    · next c r s hs =>
      split at e4
      · next hcr =>
        subst hcr
        cases e4
        exact ⟨_, _, hs, rfl⟩
      · cases e4
    · cases e4
  rw [ht] at hn
  replace hn : Ten.Fits t u := hn
  obtain ⟨q, q1, q2⟩ := squeezeLast_some h1
  cases e3.symm.trans q1
  obtain ⟨N', n1, n2, n3⟩ := diag_some ht
  cases e4.symm.trans n1
  obtain rfl : n = k := by
    rw [q2, n2] at e5
    simpa using e5
  have hs := zip_shape e6
  rw [q2, n2, bcast_cons] at hs
  obtain ⟨bb, hb, hbu⟩ := Ten.Fits.bcast h2 hn
  rw [hb] at hs
  refine ⟨n, bb, (Option.some.inj hs).symm, hbu, fun d hd => ?_⟩
  obtain ⟨a, a1, a2, a3⟩ := h3 d hd
  have hm : Stheno.gpMeasure (Stheno.runOps (ops.map (·.at' d)) {}) f.p = some μ := by
    rw [← C72_state]
    exact e1
  refine ⟨μ, a, hm, a1, a2, ?_, ?_, fun i hi => ?_⟩
  · show f.noise.shape.tail.headD 0 = n
    rw [ht]
    rfl
  · show f.noise.shape.headD 0 = n
    rw [ht]
    rfl
  · rw [zip_get e6, squeezeLast_get q1 0, n3, List.getD_eq_getElem?_getD, a3 i hi]
    rfl

/-- **C73.** The log-density of a batch of values is at every index the log-density of the values at this index. -/
theorem C73_density (hx : f.x.Fits u) (hn : Ten.Fits f.noise.shape.tail.tail u) (hy : Ten.Fits y.batch u) (hw : Whole y) (hc : y.ncols = 1)
    (e : FddLogpdf (runOps ops {}) f y r) (hd : In d u) :
    ∃ r', Stheno.FddLogpdf (Stheno.runOps (ops.map (·.at' d)) {}) (f.at' d) (valsAt d y) r' ∧ r.get d = some r' := by
  obtain ⟨v, V, l, bm, bv, h1, h2, h3, h4, h5, h6⟩ := e.ret
  obtain ⟨n', r', c', bm', bv', s1, s2, s3, s4, h7⟩ := C73_normal h hx hn h1
  rw [h2] at s1
  cases s1
  rw [h3] at s2
  cases s2
  obtain ⟨v', ⟨Vc, Vr, Ve⟩, k1, k2, k3, k4, k5, k6⟩ := h7 d hd
  simp only at k3 k4 k6
  subst k3
  subst k4
  have hg : (⟨v, V⟩ : BNormal).Sized Vr bm bv := ⟨h2, h3⟩
  have hs : y.uprank.shape = 1 :: Vr :: y.batch := by rw [uprank_shape, hc, h5]
  have e1 : (⟨v, V⟩ : BNormal).logpdf y = (⟨v, V⟩ : BNormal).logpdf y.uprank := by
    unfold BNormal.logpdf
    rw [uprank_uprank]
  have hsome : ∀ i : Fin Vr, (y.uprank.get (0 :: i :: d)).isSome := fun i => hw.get hc hy hd (by rw [h5]; exact i.2)
  obtain ⟨u', w', -, -, -, hr⟩ := (BNormal.C69_logpdf hg hs (fun _ hb i hi => by
    refine hw _ ?_
    rw [hs, hb]
    exact .cons one_pos (.cons hi .nil))).1 r (e1.symm.trans h6)
  have hr := hr d 0 one_pos
  rw [if_pos rfl] at hr
  have hN : asNormal (.col v') ⟨Vr, Vr, Ve⟩ = (⟨v, V⟩ : BNormal).at' Vr d := by
    unfold asNormal BNormal.at'
    congr 1
    · funext i
      show v'.getD i 0 = v.get (0 :: i :: d)
      rw [List.getD_eq_getElem?_getD, k5 i i.2]
      rfl
    · funext i j
      exact k6 i i.2 j j.2
  have hval : ∀ i : Fin Vr, (valsAt d y).getD i none = y.uprank.get (0 :: i :: d) := by
    intro i
    unfold valsAt
    rw [List.getD_eq_getElem?_getD, List.getElem?_map, List.getElem?_range (by rw [h5]; exact i.2)]
    rfl
  have hall : ∀ i : Fin Vr, ((valsAt d y).getD i none).isSome := fun i => by
    rw [hval]
    exact hsome i
  have hpd : ((⟨v, V⟩ : BNormal).at' Vr d).var.PosDef := by
    show (V.mat Vr Vr d).PosDef
    rw [← mat_clip h3 (Below.refl bv)]
    exact h4 _ (s4.within hd)
  refine ⟨_, ⟨v', ⟨Vr, Vr, Ve⟩, k1, rfl, k2, by simp [valsAt, h5], ?_, rfl⟩, ?_⟩
  · rw [hN]
    exact hpd.submatrix (e := fun i => ((List.finRange Vr).filter fun i : Fin Vr => ((valsAt d y).getD i none).isSome).get i)
      (List.nodup_iff_injective_get.1 ((List.nodup_finRange Vr).filter _))
  · rw [hr, hN]
    unfold BNormal.density Normal.logpdf
    refine (if_pos hsome).trans (congrArg some ((congrArg _ (funext fun i => ?_)).trans (if_pos hall).symm))
    show (y.uprank.get (0 :: i :: d)).getD 0 = ((valsAt d y).getD i none).getD 0
    rw [hval]

end

/-- **C73.** `measure.logpdf` in all notations: the log-densities of a batch of values under a measure are at every index the log-density of the values at this
index. -/
theorem C73_logpdf (h : ∀ o ∈ ops, (Keep.fits u).Op o) (e : logpdfArgs (runOps ops {}) ord m as = some (os, f, y)) (ha : Ready as) (hx : f.x.Fits u)
    (hn : Ten.Fits f.noise.shape.tail.tail u) (hy : Ten.Fits y.batch u) (hw : Whole y) (hc : y.ncols = 1) (er : FddLogpdf (runOps (ops ++ os) {}) f y r) (hd : In d u) :
    ∃ r', Stheno.logpdfArgs (Stheno.runOps (ops.map (·.at' d)) {}) ord m (as.map (·.at' d)) = some (os.map (·.at' d), f.at' d, valsAt d y) ∧
      Stheno.FddLogpdf (Stheno.runOps (ops.map (·.at' d) ++ os.map (·.at' d)) {}) (f.at' d) (valsAt d y) r' ∧ r.get d = some r' := by
  have ho : ∀ o ∈ os, (Keep.fits u).Op o := by
    have hcall : ∀ {w : BWorld} {f : BFdd} {g : BOp × BFdd}, callFdd w m f = some g → (Keep.fits u).Op g.1 := by
      intro w f g hg
      unfold callFdd at hg
      simp only at hg
      split at hg
      · cases hg
      · obtain ⟨_, _, hg⟩ := Option.bind_eq_some_iff.1 hg
        cases hg
        trivial
    have hcomb : ∀ {w : BWorld} {fs : List BFdd} {g : BOp × BFdd}, combine w ord fs = some g → (Keep.fits u).Op g.1 := by
      intro w fs g hg
      unfold combine at hg
      simp only at hg
      split at hg
      · cases hg
      · obtain ⟨_, _, hg⟩ := Option.bind_eq_some_iff.1 hg
        cases hg
        trivial
    have e' := e
    unfold logpdfArgs at e'
    split at e'
    · obtain ⟨g, h1, h2⟩ := Option.bind_eq_some_iff.1 e'
      cases h2
      intro o ho
      obtain rfl := List.mem_singleton.1 ho
      exact hcall h1
    · obtain ⟨g, h1, h2⟩ := Option.bind_eq_some_iff.1 e'
      cases h2
      intro o ho
      obtain rfl := List.mem_singleton.1 ho
      exact hcall h1
    · obtain ⟨l, -, e1⟩ := Option.bind_eq_some_iff.1 e'
      obtain ⟨⟨o1, f1⟩, h2, e2⟩ := Option.bind_eq_some_iff.1 e1
      obtain ⟨y', -, e3⟩ := Option.bind_eq_some_iff.1 e2
      obtain ⟨⟨o2, f2⟩, h4, e4⟩ := Option.bind_eq_some_iff.1 e3
      cases e4
      intro o ho
      rcases List.mem_cons.1 ho with rfl | ho
      · exact hcomb h2
      · obtain rfl := List.mem_singleton.1 ho
        exact hcall h4
  have e1 := logpdfArgs_at (runOps ops {}) e ha hc d
  rw [C72_state] at e1
  obtain ⟨r', h1, h2⟩ := C73_density (ops := ops ++ os) (fun o ho' => (List.mem_append.1 ho').elim (h o) (ho o)) hx hn hy hw hc er hd
  rw [List.map_append] at h1
  exact ⟨r', e1, h1, h2⟩

/-! ### Returning -/

theorem Keep.is_fitsL : ∀ {l : BLRule}, (Keep.is s).L l → (Keep.fits s).L l
  | .zero, _ => trivial
  | .const _, h => BKExpr.Is.fits h
  | .fn _, h => fun j => BKExpr.Is.fits (h j)
  | .look _, _ => trivial
  | .lookR _, _ => trivial
  | .add _ _, h => ⟨is_fitsL h.1, is_fitsL h.2⟩
  | .scale _ l, h => is_fitsL (l := l) h
  | .tmul _ _ _, h => ⟨trivial, is_fitsL h.2⟩
  | .pre _ _ _, h => ⟨trivial, trivial, is_fitsL h.2.2⟩
  | .cross _ _, _ => trivial

theorem BObs.Is.fits : ∀ {o : BObs}, o.Is s → o.Fits s
  | .exact _ _ _ _, h => ⟨h.1.fits, h.2.1.fits, h.2.2.2⟩
  | .pseudo _ _ _, h => BPseudo.Is.fits h

theorem Keep.is_fits {o : BOp} (h : (Keep.is s).Op o) : (Keep.fits s).Op o := by
  cases o with
  | gp => exact ⟨BMExpr.Is.fits h.1, BKExpr.Is.fits h.2⟩
  | addGP => exact ⟨BMExpr.Is.fits h.1, BKExpr.Is.fits h.2.1, is_fitsL h.2.2⟩
  | condition => exact BObs.Is.fits h
  | _ => trivial

section
variable (hs : ∃ d, In d s) (h : ∀ o ∈ ops, (Keep.is s).Op o)
include hs h

/-- **C73.** If the inputs have the batch dimensions `s`, then the mean and the variance of an FDD can be computed if they can be computed at all indices. They have
the batch dimensions `s`. -/
theorem C73_normal_returns (hx : f.x.Is s) (hn : f.noise.MatIs s)
    (e : ∀ d, In d s → ∃ v V, Stheno.FddNormal (Stheno.runOps (ops.map (·.at' d)) {}) (f.at' d) v V) :
    ∃ v V n k c, FddNormal (runOps ops {}) f v V ∧ v.shape = 1 :: n :: s ∧ V.shape = c :: k :: s := by
  obtain ⟨d0, h0⟩ := hs
  obtain ⟨v0, V0, μ, K0, m0, -, k0, a0⟩ := e d0 h0
  have hm : gpMeasure (runOps ops {}) f.p = some μ := by
    rw [← C72_state] at m0
    exact m0
  have hm' : ∀ d, Stheno.gpMeasure (Stheno.runOps (ops.map (·.at' d)) {}) f.p = some μ := fun d => by
    rw [← C72_state]
    exact hm
  obtain ⟨v, n, v1, v2, -⟩ := C72_mean_returns (m := μ) (p := f.p) ⟨d0, h0⟩ h hx fun d hd => by
    obtain ⟨v, V, μ', K, q1, q2, -, -⟩ := e d hd
    cases (hm' d).symm.trans q1
    exact ⟨v, q2⟩
  obtain ⟨K, k, c, K1, K2, K3⟩ := C72_kernel_returns (m := μ) (p := f.p) (q := f.p) ⟨d0, h0⟩ h hx hx fun d hd => by
    obtain ⟨v, V, μ', K, q1, -, q3, -⟩ := e d hd
    cases (hm' d).symm.trans q1
    exact ⟨K, q3⟩
  obtain ⟨K', g1, g2, g3, -⟩ := K3 d0 h0
  obtain ⟨r', c', b, n1, n2⟩ := hn
  have : K0 = K' := by
    obtain ⟨a, i, i1, i2⟩ := k0
    obtain ⟨a', i', j1, j2⟩ := g1
    cases i1.symm.trans j1
    have t1 := (ev_le (le_max_left i i')).K _ _ _ _ i2
    have t2 := (ev_le (le_max_right i i')).K _ _ _ _ j2
    exact Option.some.inj (t1.symm.trans t2)
  subst this
  have hcr : c = c' ∧ k = r' := by
    unfold Mat.add at a0
    split at a0
    · next hh =>
      have e1 : (f.at' d0).noise.r = r' := by
        show f.noise.shape.tail.headD 0 = r'
        rw [n1]
        rfl
      have e2 : (f.at' d0).noise.c = c' := by
        show f.noise.shape.headD 0 = c'
        rw [n1]
        rfl
      exact ⟨by rw [← g3, hh.2, e2], by rw [← g2, hh.1, e1]⟩
    · cases a0
  obtain ⟨rfl, rfl⟩ := hcr
  have hb : bcast K.shape f.noise.shape = some (c :: k :: s) := by
    rw [K2, n1, bcast_cons, bcast_cons]
    obtain ⟨b', hb, hb'⟩ := Ten.Fits.bcast (Ten.Fits.refl s) n2
    obtain rfl : b' = s := hb'.antisymm (bcast_again hb)
    rw [hb]
    rfl
  obtain ⟨V, V1, V2⟩ := zip_some (f := fun a b : ℝ => a + b) hb
  refine ⟨v, V, n, k, c, ⟨μ, K, hm, v1, K1, ?_⟩, v2, V2⟩
  unfold bin
  rw [K2, n1]
  simp only [and_self, if_true]
  exact V1

/-- **C73.** If the inputs and values have the batch dimensions `s`, then the log-densities can be computed if they can be computed at all indices. There is one for
every index. -/
theorem C73_density_returns (hx : f.x.Is s) (hn : f.noise.MatIs s) (hw : Whole y) (hc : y.ncols = 1) (hb : y.batch = s)
    (e : ∀ d, In d s → ∃ r', Stheno.FddLogpdf (Stheno.runOps (ops.map (·.at' d)) {}) (f.at' d) (valsAt d y) r') :
    ∃ r, FddLogpdf (runOps ops {}) f y r ∧ r.shape = s := by
  obtain ⟨v, V, n, k, c, h1, h2, h3⟩ := C73_normal_returns hs h hx hn fun d hd => by
    obtain ⟨r', ⟨v, V, hv, -⟩⟩ := e d hd
    exact ⟨v, V, hv⟩
  have hfits : ∀ o ∈ ops, (Keep.fits s).Op o := fun o ho => Keep.is_fits (h o ho)
  obtain ⟨n', k', c', bm, bv, s1, s2, -, -, h7⟩ := C73_normal hfits hx.fits hn.fits h1
  rw [h2] at s1
  cases s1
  rw [h3] at s2
  cases s2
  have huniq : ∀ d, In d s → ∀ v' V' v'' V'', Stheno.FddNormal (Stheno.runOps (ops.map (·.at' d)) {}) (f.at' d) v' V' →
      Stheno.FddNormal (Stheno.runOps (ops.map (·.at' d)) {}) (f.at' d) v'' V'' → v' = v'' ∧ V' = V'' := by
    rintro d hd v' V' v'' V'' ⟨μ, K, q1, ⟨a, i, i1, i2⟩, ⟨b, j, j1, j2⟩, q4⟩ ⟨μ', K', q1', ⟨a', i', i1', i2'⟩, ⟨b', j', j1', j2'⟩, q4'⟩
    cases q1.symm.trans q1'
    cases i1.symm.trans i1'
    cases j1.symm.trans j1'
    have t1 := (ev_le (le_max_left i i')).M _ _ _ i2
    have t2 := (ev_le (le_max_right i i')).M _ _ _ i2'
    have t3 := (ev_le (le_max_left j j')).K _ _ _ _ j2
    have t4 := (ev_le (le_max_right j j')).K _ _ _ _ j2'
    have tk : K = K' := Option.some.inj (t3.symm.trans t4)
    subst tk
    exact ⟨Option.some.inj (t1.symm.trans t2), Option.some.inj (q4.symm.trans q4')⟩
  have hsz : c = k ∧ n = k ∧ y.nrows = k := by
    obtain ⟨d0, h0⟩ := hs
    obtain ⟨v', V', k1, k2, k3, k4, -, -⟩ := h7 d0 h0
    obtain ⟨r', ⟨v'', V'', q1, q2, q3, q4, -, -⟩⟩ := e d0 h0
    obtain ⟨rfl, rfl⟩ := huniq d0 h0 _ _ _ _ k1 q1
    refine ⟨by rw [← k4, q2, k3], by rw [← k2, q3, k3], ?_⟩
    rw [← k3, ← q4]
    simp [valsAt]
  obtain ⟨rfl, rfl, hy⟩ := hsz
  have hg : (⟨v, V⟩ : BNormal).Sized n s s := ⟨h2, h3⟩
  have hsh : y.uprank.shape = 1 :: n :: s := by rw [uprank_shape, hc, hy, hb]
  have e1 : (⟨v, V⟩ : BNormal).logpdf y = (⟨v, V⟩ : BNormal).logpdf y.uprank := by
    unfold BNormal.logpdf
    rw [uprank_uprank]
  have hL := BNormal.C69_logpdf hg hsh (fun _ hb i hi => by
    refine hw _ ?_
    rw [hsh, hb]
    exact .cons one_pos (.cons hi .nil))
  obtain ⟨r, hr⟩ := hL.2 s s (bcast_self s) (bcast_self s)
  obtain ⟨u', w', hu', hw', hr', -⟩ := hL.1 r hr
  cases (bcast_self s).symm.trans hu'
  cases (bcast_self s).symm.trans hw'
  rw [if_pos rfl] at hr'
  refine ⟨r, ⟨v, V, n, s, s, h1, h2, h3, fun d hd => ?_, hy, e1.trans hr⟩, hr'⟩
  obtain ⟨v', V', k1, k2, k3, k4, k5, k6⟩ := h7 d hd
  obtain ⟨r', ⟨v'', V'', q1, q2, q3, q4, q5, -⟩⟩ := e d hd
  obtain ⟨rfl, rfl⟩ := huniq d hd _ _ _ _ k1 q1
  obtain ⟨Vr, Vc, Ve⟩ := V'
  simp only at k3 k4 k6
  subst k3
  have hlen : ∀ i : Fin Vr, ((valsAt d y).getD i none).isSome := fun i => by
    have hi : (i : ℕ) < y.nrows := by rw [hy]; exact i.2
    unfold valsAt
    rw [List.getD_eq_getElem?_getD, List.getElem?_map, List.getElem?_range hi]
    exact hw.get hc (by rw [hb]; exact Ten.Fits.refl s) hd hi
  have hall : ((List.finRange Vr).filter fun i : Fin Vr => ((valsAt d y).getD i none).isSome) = List.finRange Vr := List.filter_eq_self.2 fun i _ => hlen i
  have := q5.submatrix (e := fun i : Fin Vr => ⟨i, by
    show (i : ℕ) < ((List.finRange Vr).filter fun i : Fin Vr => ((valsAt d y).getD i none).isSome).length
    rw [hall]
    simp⟩) fun i j hij => Fin.ext (by simpa using hij)
  convert this using 1
  funext i j
  show V.get (j :: i :: d) = Ve _ _
  have hget : ∀ (i : Fin Vr) (hi : (i : ℕ) < ((List.finRange Vr).filter fun i : Fin Vr => ((valsAt d y).getD i none).isSome).length),
      ((List.finRange Vr).filter fun i : Fin Vr => ((valsAt d y).getD i none).isSome)[(i : ℕ)]'hi = i := fun i hi => by
    rw [List.getElem_of_eq hall hi]
    simp
  rw [← k6 i i.2 j j.2]
  exact congrArg₂ Ve (congrArg Fin.val (hget i _)).symm (congrArg Fin.val (hget j _)).symm

end

end Bat

/-! ### Examples -/

namespace Bat.ExampleFdd
open BatchExample

/-- A process. -/
def prior : List BOp := [.newMeasure, .gp (.fn (.const 3)) (.prim k) (some 0) (some "f")]

/-- The process at a batch of inputs, with noise. -/
def f : BFdd := ⟨0, z, fillDiag 1 1⟩

/-- The process at a batch of three inputs each, with noise. -/
def g : BFdd := ⟨0, x, fillDiag 2 3⟩

/-- Values for `f`. -/
def yf : BVals := y.map some

/-- Values for `g`. -/
def yg : BVals := ⟨[1, 3, 2], fun i => some (i.tail.headD 0 - i.tail.tail.headD 0)⟩

theorem f_made : mkFdd (runOps prior {}) 0 z (some (.num 1)) = some f := rfl
theorem g_made : mkFdd (runOps prior {}) 0 x (some (.num 2)) = some g := rfl
theorem yf_whole : Whole yf := fun _ _ => rfl
theorem yg_whole : Whole yg := fun _ _ => rfl

theorem is : ∀ o ∈ prior, (Keep.is [2]).Op o := by
  intro o ho
  simp only [prior, List.mem_cons, List.not_mem_nil, or_false] at ho
  rcases ho with rfl | rfl
  · trivial
  · exact ⟨trivial, trivial⟩

/-- Noise in FDDs that are made: raising, and the noise at an index. -/
example (d : List ℕ) : ((noiseTen (some (.num 2)) 3).toMat d).e 1 1 = 2 ∧ Stheno.mkFdd (Stheno.runOps (prior.map (·.at' d)) {}) 0 (x.at' d) (.scalar 2) ≠ none := by
  refine ⟨(C73_noise (some (.num 2)) 3 d).2.2 1 (show 1 < 3 by decide) 1 (show 1 < 3 by decide), fun h => ?_⟩
  have := (C73_fdd prior d 0 x (some (.num 2))).1.2 h
  rw [g_made] at this
  cases this

/-- Conditioning on a pair. -/
example (d : List ℕ) (hd : In d [2]) : ∃ os, conditionArgs (runOps prior {}) [] 0 [.fdd f, .vals yf] = some os ∧
    Stheno.conditionArgs (Stheno.runOps (prior.map (·.at' d)) {}) 5 [] 0 [.fdd (f.at' d), .vals (valsAt d yf)] = some (os.map (·.at' d)) := by
  have e : observe f yf = some (.exact 0 z (fillDiag 1 1) (yf.uprank.map (·.getD 0))) := if_pos ⟨rfl, yf_whole⟩
  have e' : conditionArgs (runOps prior {}) [] 0 [.fdd f, .vals yf] = some [.condition 0 (.exact 0 z (fillDiag 1 1) (yf.uprank.map (·.getD 0)))] := by
    simp only [conditionArgs, mkObs, e]
    rfl
  exact ⟨_, e', C73_condition prior 5 e' (show Fine' [2] [.fdd f, .vals yf] from rfl) hd⟩

theorem wide : Wide [f, g] := ⟨by decide, by decide⟩

theorem pairs : pairs? [bpair (f, yf), bpair (g, yg)] = some [(f, yf), (g, yg)] := rfl

/-- The noise of the FDD that combines both. -/
def nc : Ten ℝ := ⟨[4, 4], fun i => (Mat.blockDiag [(fillDiag 1 1).toMat [], (fillDiag 2 3).toMat []]).e (i.tail.headD 0) (i.headD 0)⟩

/-- The FDD that combines both. -/
def c : BFdd := ⟨1, .tup [.fdd 0 z, .fdd 0 x], nc⟩

theorem combined : combine (runOps prior {}) [0] [f, g] = some (.cross [0, 0] [0], c) := by
  have hb : blockDiagTen [fillDiag 1 1, fillDiag 2 3] = some nc := if_pos (by simp [fillDiag, Ten.rank])
  have hc : combineFdds ((BOp.cross [0, 0] [0]).after (runOps prior {})) 1 [f, g] = some c := by
    have : combineFdds ((BOp.cross [0, 0] [0]).after (runOps prior {})) 1 [f, g] =
      (blockDiagTen [fillDiag 1 1, fillDiag 2 3]).bind fun n => mkFdd ((BOp.cross [0, 0] [0]).after (runOps prior {})) 1 (.tup [.fdd 0 z, .fdd 0 x]) (some n) := rfl
    rw [this, hb]
    rfl
  have : combine (runOps prior {}) [0] [f, g] =
      (combineFdds ((BOp.cross [0, 0] [0]).after (runOps prior {})) 1 [f, g]).bind fun f => some (.cross [0, 0] [0], f) := rfl
  rw [this, hc]
  rfl

/-- Both values. -/
theorem values : ∃ t o, combineValues [yf, yg] = some t ∧ observe c t = some o := by
  refine ⟨_, _, rfl, if_pos ⟨rfl, fun i hi => ?_⟩⟩
  by_cases h : i.tail.headD 0 < 1
  · exact (congrArg Option.isSome (if_pos h)).trans rfl
  · exact (congrArg Option.isSome (if_neg h)).trans rfl

/-- Conditioning on two pairs. -/
example (d : List ℕ) (hd : In d [2]) : ∃ os, conditionArgs (runOps prior {}) [0] 0 [bpair (f, yf), bpair (g, yg)] = some os ∧
    Stheno.conditionArgs (Stheno.runOps (prior.map (·.at' d)) {}) 5 [0] 0 [(bpair (f, yf)).at' d, (bpair (g, yg)).at' d] = some (os.map (·.at' d)) := by
  obtain ⟨t, o, t1, t2⟩ := values
  have e' : mkObs (runOps prior {}) [0] [bpair (f, yf), bpair (g, yg)] = some ([.cross [0, 0] [0]], o) := by
    have : mkObs (runOps prior {}) [0] [bpair (f, yf), bpair (g, yg)] = (combine (runOps prior {}) [0] [f, g]).bind fun c =>
      (combineValues [yf, yg]).bind fun t => (observe c.2 t).bind fun o => some ([c.1], o) := rfl
    rw [this, combined, t1]
    show ((observe c t).bind fun o => some ([BOp.cross [0, 0] [0]], o)) = _
    rw [t2]
    rfl
  have e : conditionArgs (runOps prior {}) [0] 0 [bpair (f, yf), bpair (g, yg)] = some ([.cross [0, 0] [0]] ++ [.condition 0 o]) := by
    have : conditionArgs (runOps prior {}) [0] 0 [bpair (f, yf), bpair (g, yg)] =
      (mkObs (runOps prior {}) [0] [bpair (f, yf), bpair (g, yg)]).bind fun c => some (c.1 ++ [.condition 0 c.2]) := rfl
    rw [this, e']
    rfl
  refine ⟨_, e, C73_condition prior 5 e (fun l hl => ?_) hd⟩
  obtain rfl := Option.some.inj (pairs.symm.trans hl)
  refine ⟨fun e he => ?_, wide⟩
  simp only [List.mem_cons, List.not_mem_nil, or_false] at he
  rcases he with rfl | rfl <;> rfl

/-- Sampling. -/
example (d : List ℕ) : ∃ os c, sampleArgs (runOps prior {}) [0] 0 [f, g] = some (os, c) ∧
    Stheno.sampleArgs (Stheno.runOps (prior.map (·.at' d)) {}) [0] 0 [f.at' d, g.at' d] = some (os.map (·.at' d), c.at' d) := by
  have : sampleArgs (runOps prior {}) [0] 0 [f, g] = some ([.cross [0, 0] [0], .call 0 1], ⟨2, .tup [.fdd 0 z, .fdd 0 x], nc⟩) := by
    have : sampleArgs (runOps prior {}) [0] 0 [f, g] =
      (combine (runOps prior {}) [0] [f, g]).bind fun c => (callFdd (c.1.after (runOps prior {})) 0 c.2).bind fun c' => some ([c.1, c'.1], c'.2) := rfl
    rw [this, combined]
    rfl
  exact ⟨_, _, this, (C73_sample prior this wide d).1⟩

/-- The log-densities at both indices. -/
theorem at_d (d : List ℕ) : ∃ r, Stheno.FddLogpdf (Stheno.runOps (prior.map (·.at' d)) {}) (f.at' d) (valsAt d yf) r := by
  obtain ⟨a, ea⟩ := z_at d
  have e1 : f.at' d = ⟨0, .num [a], (fillDiag 1 1).toMat d⟩ := by
    unfold BFdd.at'
    rw [← ea]
    rfl
  rw [e1]
  refine ⟨_, ⟨[3], ⟨1, 1, fun i j => k ([a].getD i []) ([a].getD j []) + ((fillDiag 1 1).toMat d).e i j⟩, ⟨0, _, rfl, ⟨.fn (.const 3), 1, rfl, rfl⟩, ⟨.prim k, 1, rfl, rfl⟩, rfl⟩,
    rfl, rfl, rfl, ?_, rfl⟩⟩
  refine (pd (A := fun i j => k ([a].getD i []) ([a].getD j []) + ((fillDiag 1 1).toMat d).e i j) (k a a + 1)
    (by simp only [k]; nlinarith [mul_self_nonneg (a.headD 0)]) ?_).submatrix
      (e := fun i => ((List.finRange 1).filter fun i : Fin 1 => ((valsAt d yf).getD i none).isSome).get i) (List.nodup_iff_injective_get.1 ((List.nodup_finRange 1).filter _))
  simp [toMat, Ten.get, fillDiag, clip]

/-- The log-densities of the batch, one for each index. -/
example : ∃ r, FddLogpdf (runOps prior {}) f yf r ∧ r.shape = [2] ∧ ∀ d, In d [2] →
    ∃ r', Stheno.FddLogpdf (Stheno.runOps (prior.map (·.at' d)) {}) (f.at' d) (valsAt d yf) r' ∧ r.get d = some r' := by
  obtain ⟨r, r1, r2⟩ := C73_density_returns (f := f) (y := yf) batch is z_is ⟨1, 1, [], rfl, rfl⟩ yf_whole rfl rfl fun d _ => at_d d
  exact ⟨r, r1, r2, fun d hd => C73_density (fun o ho => Keep.is_fits (is o ho)) z_is.fits rfl rfl yf_whole rfl r1 hd⟩

/-- The mean and the variance of the batch. -/
example : ∃ v V, FddNormal (runOps prior {}) f v V ∧ ∀ d, In d [2] → ∃ v' V', Stheno.FddNormal (Stheno.runOps (prior.map (·.at' d)) {}) (f.at' d) v' V' := by
  obtain ⟨v, V, _, _, _, h, -⟩ := C73_normal_returns (f := f) batch is z_is ⟨1, 1, [], rfl, rfl⟩ fun d _ => by
    obtain ⟨r, v, V, hv, -⟩ := at_d d
    exact ⟨v, V, hv⟩
  obtain ⟨_, _, _, _, _, -, -, -, -, h'⟩ := C73_normal (f := f) (fun o ho => Keep.is_fits (is o ho)) z_is.fits rfl h
  exact ⟨v, V, h, fun d hd => let ⟨v', V', e, _⟩ := h' d hd; ⟨v', V', e⟩⟩

/-- The diagonal of the variance of the batch. -/
example : ∃ v n b, FddDiag (runOps prior {}) f v ∧ v.shape = n :: b ∧ Ten.Fits b [2] := by
  have e : ∀ d, Stheno.kernelAt (Stheno.runOps (prior.map (·.at' d)) {}) 0 0 0 = some (.prim k) := fun d => by
    rw [(C72_lookup prior d 0 0 0).2]
    rfl
  obtain ⟨t, r, h1, h2, h3⟩ := C72_elwise_returns batch is (m := 0) (p := 0) (q := 0) z_is z_is fun d _ => ⟨_, .prim k, 1, e d, rfl⟩
  obtain ⟨v, ⟨_, n, g1, g2⟩, g3, -⟩ := h3 [0] (by decide)
  have hr : r = 1 := by
    obtain ⟨a, ea⟩ := z_at [0]
    rw [e [0]] at g1
    cases g1
    rw [ea] at g2
    cases n with
    | zero => cases g2
    | succ n =>
      cases g2
      exact g3.symm
  subst hr
  have : FddDiag (runOps prior {}) f ⟨[1, 2], fun i => Ten.get ⟨[1, 2], fun i => t.e (0 :: i)⟩ i + Ten.get ⟨[1], fun i => (fillDiag 1 1).e (i.headD 0 :: i.headD 0 :: i.tail)⟩ i⟩ :=
    ⟨0, t, ⟨[1, 2], fun i => t.e (0 :: i)⟩, _, rfl, h1, by simp only [squeezeLast, h2], rfl, rfl, rfl⟩
  obtain ⟨n, b, b1, b2, -⟩ := C73_diag (f := f) (fun o ho => Keep.is_fits (is o ho)) z_is.fits rfl this
  exact ⟨_, n, b, this, b1, b2⟩

/-- The log-densities with `measure.logpdf`. -/
example : ∃ os c r, logpdfArgs (runOps prior {}) [] 0 [.fdd f, .vals yf] = some (os, c, yf) ∧ FddLogpdf (runOps (prior ++ os) {}) c yf r ∧ ∀ d, In d [2] →
    ∃ r', Stheno.logpdfArgs (Stheno.runOps (prior.map (·.at' d)) {}) [] 0 [.fdd (f.at' d), .vals (valsAt d yf)] = some (os.map (·.at' d), c.at' d, valsAt d yf) ∧
      Stheno.FddLogpdf (Stheno.runOps (prior.map (·.at' d) ++ os.map (·.at' d)) {}) (c.at' d) (valsAt d yf) r' ∧ r.get d = some r' := by
  have e : logpdfArgs (runOps prior {}) [] 0 [.fdd f, .vals yf] = some ([.call 0 0], ⟨1, z, fillDiag 1 1⟩, yf) := rfl
  have hi : ∀ o ∈ prior ++ [.call 0 0], (Keep.is [2]).Op o := by
    intro o ho
    rcases List.mem_append.1 ho with ho | ho
    · exact is o ho
    · obtain rfl := List.mem_singleton.1 ho
      trivial
  obtain ⟨r, r1, -⟩ := C73_density_returns (f := ⟨1, z, fillDiag 1 1⟩) (y := yf) batch hi z_is ⟨1, 1, [], rfl, rfl⟩ yf_whole rfl rfl fun d _ => by
    obtain ⟨a, ea⟩ := z_at d
    have e1 : BFdd.at' d ⟨1, z, fillDiag 1 1⟩ = ⟨1, .num [a], (fillDiag 1 1).toMat d⟩ := by
      unfold BFdd.at'
      rw [← ea]
    rw [e1]
    refine ⟨_, ⟨[3], ⟨1, 1, fun i j => k ([a].getD i []) ([a].getD j []) + ((fillDiag 1 1).toMat d).e i j⟩, ⟨0, _, rfl, ⟨.fn (.const 3), 1, rfl, rfl⟩, ⟨.prim k, 1, rfl, rfl⟩, rfl⟩,
      rfl, rfl, rfl, ?_, rfl⟩⟩
    refine (pd (A := fun i j => k ([a].getD i []) ([a].getD j []) + ((fillDiag 1 1).toMat d).e i j) (k a a + 1)
      (by simp only [k]; nlinarith [mul_self_nonneg (a.headD 0)]) ?_).submatrix
        (e := fun i => ((List.finRange 1).filter fun i : Fin 1 => ((valsAt d yf).getD i none).isSome).get i) (List.nodup_iff_injective_get.1 ((List.nodup_finRange 1).filter _))
    simp [toMat, Ten.get, fillDiag, clip]
  exact ⟨_, _, r, e, r1, fun d hd => C73_logpdf (fun o ho => Keep.is_fits (is o ho)) e (show 2 ≤ 2 from le_rfl) z_is.fits rfl rfl yf_whole rfl r1 hd⟩

end Bat.ExampleFdd

end Stheno
