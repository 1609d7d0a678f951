import Verif.BatchEval
import Verif.Props.BatchSparse

/-!
# Batches at an index

The input, mean or kernel at an index of a batch, and how computations with arrays are computations at all indices.
-/

namespace Stheno

open Matrix

namespace Ten

/-- The index is within the shape. -/
abbrev In (d u : List ℕ) : Prop := List.Forall₂ (· < ·) d u

theorem Fits.within : ∀ {s u d : List ℕ}, Fits s u → In d u → In (clip s d) s
  | [], _, _, _, _ => .nil
  | a :: s, [], _, h, _ => by cases h
  | a :: s, b :: u, i :: d, h, .cons hi hd => by
    obtain ⟨e, h⟩ := h.cases
    refine .cons ?_ (h.within hd)
    split <;> omega

theorem Fits.below {s u : List ℕ} (h : Fits s u) : Below s u := (bcast_below h).1

theorem get_of {α : Type} {t : Ten α} {c r : ℕ} {s : List ℕ} (h : t.shape = c :: r :: s) {i j : ℕ} (hi : i < r) (hj : j < c) (d : List ℕ) :
    t.get (j :: i :: d) = t.e (j :: i :: clip s d) := by
  rw [get, h, clip, clip]
  congr 2
  · split <;> omega
  · congr 1
    split <;> omega

theorem uprank_of {α : Type} {t : Ten α} {c r : ℕ} {s : List ℕ} (h : t.shape = c :: r :: s) : t.uprank = t := by
  unfold uprank
  split
  · next e => rw [h] at e; cases e
  · next e => rw [h] at e; cases e
  · rfl

theorem uprank_shape {α : Type} (t : Ten α) : t.uprank.shape = t.ncols :: t.nrows :: t.batch := by
  unfold ncols nrows batch uprank
  split
  · rfl
  · rfl
  · next h1 h2 =>
    match e : t.shape with
    | [] => exact absurd e h1
    | [n] => exact absurd e (h2 n)
    | _ :: _ :: _ => rfl

theorem row_clip {t : Ten ℝ} {s : List ℕ} (h : Below t.batch s) (i : ℕ) (d : List ℕ) : t.row i (clip s d) = t.row i d := by
  unfold row
  refine List.map_congr_left fun j _ => ?_
  rw [get, uprank_shape, clip, clip, get, uprank_shape, clip, clip, h]

theorem row_length (t : Ten ℝ) (i : ℕ) (d : List ℕ) : (t.row i d).length = t.ncols := by simp [row]

/-- The matrix at the index `d` of the batch. -/
def toMat (t : Ten ℝ) (d : List ℕ) : Mat := ⟨t.shape.tail.headD 0, t.shape.headD 0, fun i j => t.get (j :: i :: d)⟩

/-- The first column of the matrix at the index `d` of the batch. -/
def colList (t : Ten ℝ) (n : ℕ) (d : List ℕ) : List ℝ := (List.range n).map fun i => t.get (0 :: i :: d)

theorem colList_length (t : Ten ℝ) (n : ℕ) (d : List ℕ) : (t.colList n d).length = n := by simp [colList]

theorem colList_getD (t : Ten ℝ) {n i : ℕ} (h : i < n) (d : List ℕ) : (t.colList n d).getD i 0 = t.get (0 :: i :: d) := by
  simp [colList, List.getD, List.getElem?_range h]

end Ten

open Ten

mutual
/-- The input at the index `d` of the batch. -/
def BInput.at' (d : List ℕ) : BInput → Input
  | .num t => .num ((List.range t.nrows).map fun i => t.row i d)
  | .fdd p x => .fdd p (x.at' d)
  | .tup xs => .tup (BInput.atL d xs)
/-- The elements of a tuple. -/
def BInput.atL (d : List ℕ) : List BInput → List Input
  | [] => []
  | x :: xs => x.at' d :: BInput.atL d xs
end

mutual
/-- The batch dimensions of the input can be broadcast to `u`. -/
def BInput.Fits (u : List ℕ) : BInput → Prop
  | .num t => Ten.Fits t.batch u
  | .fdd _ x => x.Fits u
  | .tup xs => BInput.FitsL u xs
/-- The same for the elements of a tuple. -/
def BInput.FitsL (u : List ℕ) : List BInput → Prop
  | [] => True
  | x :: xs => x.Fits u ∧ BInput.FitsL u xs
end

/-- The pseudo-observations at the index `d` of the batch. -/
def BPseudo.at' (d : List ℕ) (o : BPseudo) : PseudoData :=
  ⟨o.method, o.z.at' d, o.noiseZ.toMat d, o.x.at' d, ⟨o.noiseX.toMat d, o.isDiagonal⟩, o.y.uprank.colList o.y.nrows d⟩

/-- The batch dimensions of pseudo-observations can be broadcast to `u`. -/
structure BPseudo.Fits (u : List ℕ) (o : BPseudo) : Prop where
  z : o.z.Fits u
  noiseZ : Ten.Fits o.noiseZ.shape.tail.tail u
  x : o.x.Fits u
  noiseX : Ten.Fits o.noiseX.shape.tail.tail u
  y : Ten.Fits o.y.batch u

/-- The kernel with the inputs and noises at the index `d` of the batch. -/
def BKExpr.at' (d : List ℕ) : BKExpr → KExpr
  | .prim k => .prim k
  | .zero => .zero
  | .mok m ps => .mok m ps
  | .adk k => .adk (k.at' d)
  | .add a b => .add (a.at' d) (b.at' d)
  | .mul a b => .mul (a.at' d) (b.at' d)
  | .scale c k => .scale c (k.at' d)
  | .tprod f g => .tprod f g
  | .rev k => .rev (k.at' d)
  | .pre t u k => .pre t u (k.at' d)
  | .post kij kzi kzj z kzz noise => .post (kij.at' d) (kzi.at' d) (kzj.at' d) (z.at' d) (kzz.at' d) (noise.toMat d)
  | .pseudo kij kzi kzj kzz kzx kxx o => .pseudo (kij.at' d) (kzi.at' d) (kzj.at' d) (kzz.at' d) (kzx.at' d) (kxx.at' d) (o.at' d)

/-- The mean with the inputs, noises and observed values at the index `d` of the batch. -/
def BMExpr.at' (d : List ℕ) : BMExpr → MExpr
  | .zero => .zero
  | .fn f => .fn f
  | .mom m ps => .mom m ps
  | .add a b => .add (a.at' d) (b.at' d)
  | .mul a b => .mul (a.at' d) (b.at' d)
  | .scale c a => .scale c (a.at' d)
  | .pre t a => .pre t (a.at' d)
  | .post mi mz kzi z kzz noise y => .post (mi.at' d) (mz.at' d) (kzi.at' d) (z.at' d) (kzz.at' d) (noise.toMat d) (y.uprank.colList y.nrows d)
  | .pseudo mi mz mx kzi kzz kzx kxx o => .pseudo (mi.at' d) (mz.at' d) (mx.at' d) (kzi.at' d) (kzz.at' d) (kzx.at' d) (kxx.at' d) (o.at' d)

/-- The batch dimensions of all observations can be broadcast to `u`. -/
def BKExpr.Fits (u : List ℕ) : BKExpr → Prop
  | .prim _ => True
  | .zero => True
  | .mok _ _ => True
  | .adk k => k.Fits u
  | .add a b => a.Fits u ∧ b.Fits u
  | .mul a b => a.Fits u ∧ b.Fits u
  | .scale _ k => k.Fits u
  | .tprod _ _ => True
  | .rev k => k.Fits u
  | .pre _ _ k => k.Fits u
  | .post kij kzi kzj z kzz noise => kij.Fits u ∧ kzi.Fits u ∧ kzj.Fits u ∧ z.Fits u ∧ kzz.Fits u ∧ Ten.Fits noise.shape.tail.tail u
  | .pseudo kij kzi kzj kzz kzx kxx o => kij.Fits u ∧ kzi.Fits u ∧ kzj.Fits u ∧ kzz.Fits u ∧ kzx.Fits u ∧ kxx.Fits u ∧ o.Fits u

/-- The batch dimensions of all observations can be broadcast to `u`. -/
def BMExpr.Fits (u : List ℕ) : BMExpr → Prop
  | .zero => True
  | .fn _ => True
  | .mom _ _ => True
  | .add a b => a.Fits u ∧ b.Fits u
  | .mul a b => a.Fits u ∧ b.Fits u
  | .scale _ a => a.Fits u
  | .pre _ a => a.Fits u
  | .post mi mz kzi z kzz noise y => mi.Fits u ∧ mz.Fits u ∧ kzi.Fits u ∧ z.Fits u ∧ kzz.Fits u ∧ Ten.Fits noise.shape.tail.tail u ∧ Ten.Fits y.batch u
  | .pseudo mi mz mx kzi kzz kzx kxx o => mi.Fits u ∧ mz.Fits u ∧ mx.Fits u ∧ kzi.Fits u ∧ kzz.Fits u ∧ kzx.Fits u ∧ kxx.Fits u ∧ o.Fits u

/-! ### Inputs -/

namespace BInput

theorem atL_eq (d : List ℕ) : ∀ xs : List BInput, atL d xs = xs.map (at' d)
  | [] => rfl
  | x :: xs => by rw [atL, atL_eq d xs]; rfl

theorem fitsL_iff {u : List ℕ} : ∀ {xs : List BInput}, FitsL u xs ↔ ∀ x ∈ xs, x.Fits u
  | [] => by simp [FitsL]
  | x :: xs => by simp [FitsL, fitsL_iff (xs := xs)]

mutual
theorem size_at (d : List ℕ) : ∀ x : BInput, numElements (x.at' d) = x.size
  | .num t => by simp [at', size, numElements]
  | .fdd p x => by rw [at', numElements, size, size_at d x]
  | .tup xs => by rw [at', numElements, size, sizeL_at d xs]
theorem sizeL_at (d : List ℕ) : ∀ xs : List BInput, numElementsL (atL d xs) = sizeL xs
  | [] => rfl
  | x :: xs => by rw [atL, numElementsL, sizeL, size_at d x, sizeL_at d xs]
end

mutual
theorem batch_fits {u : List ℕ} : ∀ {x : BInput} {s : List ℕ}, x.Fits u → x.batch = some s → Ten.Fits s u
  | .num t, s, h, e => by
    rw [batch] at e
    cases e
    exact h
  | .fdd p x, s, h, e => batch_fits (x := x) h e
  | .tup xs, s, h, e => batchL_fits (xs := xs) h e
theorem batchL_fits {u : List ℕ} : ∀ {xs : List BInput} {s : List ℕ}, FitsL u xs → batchL xs = some s → Ten.Fits s u
  | [], s, h, e => by cases e; rfl
  | x :: xs, s, h, e => by
    rw [batchL] at e
    obtain ⟨a, ha, e⟩ := Option.bind_eq_some_iff.1 e
    obtain ⟨b, hb, e⟩ := Option.bind_eq_some_iff.1 e
    obtain ⟨v, hv, h'⟩ := (batch_fits h.1 ha).bcast (batchL_fits h.2 hb)
    rw [e] at hv
    cases hv
    exact h'
end

end BInput

theorem mapM_some {α β : Type} {f : α → Option β} {g : α → β} : ∀ {l : List α}, (∀ a ∈ l, f a = some (g a)) → l.mapM f = some (l.map g)
  | [], _ => rfl
  | a :: l, h => by rw [List.mapM_cons, h a (by simp), mapM_some fun b hb => h b (by simp [hb])]; rfl

theorem onRows_at {g : Pt → Pt} {t t' : Ten ℝ} {u : List ℕ} (h : t.onRows g = some t') (ht : Ten.Fits t.batch u) :
    t'.nrows = t.nrows ∧ t'.batch = t.batch ∧ ∀ d, In d u → ∀ i < t.nrows, t'.row i d = g (t.row i d) := by
  unfold Ten.onRows at h
  split at h
  swap
  · cases h
  next hf =>
  have hl := hf.choose_spec
  cases h
  set f := hf.choose
  set t' : Ten ℝ := ⟨f :: t.nrows :: t.batch, fun i => (g (t.row (i.tail.headD 0) i.tail.tail)).getD (i.headD 0) 0⟩ with ht'
  have hu : t'.uprank = t' := uprank_of (t := t') rfl
  refine ⟨by rw [nrows, hu]; rfl, by rw [batch, hu]; rfl, fun d hd i hi => ?_⟩
  have hc : t'.ncols = f := by rw [ncols, hu]; rfl
  have hlen := hl i hi _ (ht.within hd)
  rw [row_clip (Below.refl _)] at hlen
  refine List.ext_getElem (by rw [row_length, hc, hlen]) fun j h1 h2 => ?_
  rw [row_length, hc] at h1
  rw [show (t'.row i d)[j]'(by rw [row_length, hc]; exact h1) = t'.uprank.get (j :: i :: d) by simp [Ten.row], hu, get_of (t := t') rfl hi h1]
  simp only [ht', List.tail_cons, List.headD_cons, row_clip (Below.refl _)]
  simp [List.getD, List.getElem?_eq_getElem h2]

/-- Input transformations work for every index of the batch. -/
theorem applyB_at {u : List ℕ} {tr : InTr} {x x' : BInput} (h : tr.applyB x = some x') (hx : x.Fits u) :
    x'.Fits u ∧ ∀ d, In d u → tr.apply (x.at' d) = some (x'.at' d) := by
  have key : ∀ (g : Pt → Pt) (f : Pt → Option Pt) (t : Ten ℝ), (t.onRows g).map .num = some x' → Ten.Fits t.batch u → (∀ x : Pt, x.length = t.ncols → f x = some (g x)) →
      x'.Fits u ∧ ∀ d, In d u → ((((List.range t.nrows).map fun i => t.row i d).mapM f).map Input.num) = some (x'.at' d) := by
    intro g f t h ht hf
    obtain ⟨t', h1, rfl⟩ := Option.map_eq_some_iff.1 h
    obtain ⟨e1, e2, e3⟩ := onRows_at h1 ht
    refine ⟨by rw [BInput.Fits, e2]; exact ht, fun d hd => ?_⟩
    rw [mapM_some (g := g), Option.map_some, BInput.at', e1, List.map_map]
    · congr 2
      refine List.map_congr_left fun i hi => ?_
      rw [e3 d hd i (List.mem_range.1 hi)]
      rfl
    · intro y hy
      obtain ⟨i, _, rfl⟩ := List.mem_map.1 hy
      exact hf _ (row_length _ _ _)
  have am : ∀ (a : Amt) (t : Ten ℝ), a.ok t.ncols = true → ∀ x : Pt, x.length = t.ncols → a.sub x = some ((a.sub x).getD x) ∧ a.div x = some ((a.div x).getD x) := by
    intro a t ha x hx
    cases a with
    | scalar c => exact ⟨rfl, rfl⟩
    | vec cs =>
      have : cs.length = x.length := by simpa [Amt.ok, hx] using ha
      simp [Amt.sub, Amt.div, this]
  cases tr with
  | none =>
    cases x <;> cases h
    · exact ⟨hx, fun d _ => rfl⟩
    · exact ⟨hx, fun d _ => rfl⟩
  | shift a =>
    cases x with
    | num t =>
      simp only [InTr.applyB] at h
      split at h
      · next ha => exact key _ _ t h hx fun x hx => (am a t ha x hx).1
      · cases h
    | _ => cases h
  | stretch a =>
    cases x with
    | num t =>
      simp only [InTr.applyB] at h
      split at h
      · next ha => exact key _ _ t h hx fun x hx => (am a t ha x hx).2
      · cases h
    | _ => cases h
  | select ds =>
    cases x with
    | num t =>
      simp only [InTr.applyB] at h
      split at h
      · next ha =>
        refine key _ _ t h hx fun x hx => mapM_some fun i hi => ?_
        have : i < x.length := by rw [hx]; exact ha i hi
        simp [List.getD, List.getElem?_eq_getElem this]
      · cases h
    | _ => cases h
  | map g =>
    cases x with
    | num t =>
      obtain ⟨h1, h2⟩ := key g (fun x => some (g x)) t h hx fun x _ => rfl
      refine ⟨h1, fun d hd => ?_⟩
      rw [← h2 d hd, mapM_some (g := g) fun _ _ => rfl]
      rfl
    | _ => cases h
  | toFdd j =>
    cases x <;> cases h
    · exact ⟨hx, fun d _ => rfl⟩
    · exact ⟨hx, fun d _ => rfl⟩

/-! ### Results -/

/-- An array of matrices, and at every index of the batch a matrix that is the result of a computation. -/
def MatsAt (u : List ℕ) (t : Ten ℝ) (f : List ℕ → Option Mat) : Prop :=
  ∃ r c s, t.shape = c :: r :: s ∧ Ten.Fits s u ∧ ∀ d, In d u → ∃ A : Mat, f d = some A ∧ A.r = r ∧ A.c = c ∧ ∀ i < r, ∀ j < c, A.e i j = t.get (j :: i :: d)

/-- An array of columns, and at every index of the batch a column that is the result of a computation. -/
def ColsAt (u : List ℕ) (t : Ten ℝ) (f : List ℕ → Option (List ℝ)) : Prop :=
  ∃ n s, t.shape = 1 :: n :: s ∧ Ten.Fits s u ∧ ∀ d, In d u → f d = some (t.colList n d)

theorem bin_inv {h : ℝ → ℝ → ℝ} {a b t : Ten ℝ} {r c r' c' : ℕ} {s s' u : List ℕ} (ha : a.shape = c :: r :: s) (hb : b.shape = c' :: r' :: s') (e : bin h a b = some t)
    (hs : Ten.Fits s u) (hs' : Ten.Fits s' u) : c' = c ∧ r' = r ∧ (∃ v, t.shape = c :: r :: v ∧ Ten.Fits v u) ∧ ∀ i, t.get i = h (a.get i) (b.get i) := by
  unfold bin at e
  rw [ha, hb] at e
  simp only at e
  split at e
  swap
  · cases e
  next hc =>
  obtain ⟨rfl, rfl⟩ := hc
  obtain ⟨v, hv, hu⟩ := hs.bcast hs'
  have := zip_shape e
  rw [ha, hb, bcast_cons, bcast_cons, hv] at this
  exact ⟨rfl, rfl, ⟨v, (Option.some.inj this).symm, hu⟩, zip_get e⟩

variable {u : List ℕ}

theorem MatsAt.bin {h : ℝ → ℝ → ℝ} {op : Mat → Mat → Option Mat} (hop : ∀ A B : Mat, A.r = B.r → A.c = B.c → op A B = some ⟨A.r, A.c, fun i j => h (A.e i j) (B.e i j)⟩)
    {a b t : Ten ℝ} {f g : List ℕ → Option Mat} (ha : MatsAt u a f) (hb : MatsAt u b g) (e : bin h a b = some t) :
    MatsAt u t fun d => (f d).bind fun A => (g d).bind fun B => op A B := by
  obtain ⟨r, c, s, h1, h2, h3⟩ := ha
  obtain ⟨r', c', s', h1', h2', h3'⟩ := hb
  obtain ⟨rfl, rfl, ⟨v, hv, hu⟩, hg⟩ := bin_inv h1 h1' e h2 h2'
  refine ⟨_, _, v, hv, hu, fun d hd => ?_⟩
  obtain ⟨A, A1, A2, A3, A4⟩ := h3 d hd
  obtain ⟨B, B1, B2, B3, B4⟩ := h3' d hd
  refine ⟨⟨A.r, A.c, fun i j => h (A.e i j) (B.e i j)⟩, ?_, A2, A3, fun i hi j hj => ?_⟩
  · simp only [A1, B1, Option.bind_some]
    exact hop A B (A2.trans B2.symm) (A3.trans B3.symm)
  · simp only [hg, A4 i hi j hj, B4 i hi j hj]

theorem ColsAt.bin {h : ℝ → ℝ → ℝ} {a b t : Ten ℝ} {f g : List ℕ → Option (List ℝ)} (ha : ColsAt u a f) (hb : ColsAt u b g) (e : bin h a b = some t) :
    ColsAt u t fun d => (f d).bind fun v => (g d).bind fun w => zipCol h v w := by
  obtain ⟨n, s, h1, h2, h3⟩ := ha
  obtain ⟨n', s', h1', h2', h3'⟩ := hb
  obtain ⟨-, rfl, ⟨v, hv, hu⟩, hg⟩ := bin_inv h1 h1' e h2 h2'
  refine ⟨_, v, hv, hu, fun d hd => ?_⟩
  simp only [h3 d hd, h3' d hd, Option.bind_some, zipCol, colList_length, if_true]
  congr 1
  simp only [colList, List.zipWith_map, List.zipWith_self, hg]

theorem MatsAt.scale {a : Ten ℝ} {f : List ℕ → Option Mat} (ha : MatsAt u a f) (c : ℝ) : MatsAt u (a.map (c * ·)) fun d => (f d).map (Mat.smul c) := by
  obtain ⟨r, c', s, h1, h2, h3⟩ := ha
  refine ⟨r, c', s, h1, h2, fun d hd => ?_⟩
  obtain ⟨A, A1, A2, A3, A4⟩ := h3 d hd
  exact ⟨Mat.smul c A, by simp only [A1]; rfl, A2, A3, fun i hi j hj => by rw [get_map, ← A4 i hi j hj]; rfl⟩

theorem ColsAt.scale {a : Ten ℝ} {f : List ℕ → Option (List ℝ)} (ha : ColsAt u a f) (c : ℝ) : ColsAt u (a.map (c * ·)) fun d => (f d).map (·.map (c * ·)) := by
  obtain ⟨n, s, h1, h2, h3⟩ := ha
  refine ⟨n, s, h1, h2, fun d hd => ?_⟩
  simp only [h3 d hd, Option.map_some]
  simp [colList, get_map]

theorem MatsAt.tr {a t : Ten ℝ} {f : List ℕ → Option Mat} (ha : MatsAt u a f) (e : a.tr = some t) : MatsAt u t fun d => (f d).map Mat.tr := by
  obtain ⟨r, c, s, h1, h2, h3⟩ := ha
  obtain ⟨p, p1, p2, p3⟩ := tr_some h1
  rw [e] at p1
  cases p1
  refine ⟨c, r, s, p2, h2, fun d hd => ?_⟩
  obtain ⟨A, A1, A2, A3, A4⟩ := h3 d hd
  refine ⟨A.tr, by simp only [A1]; rfl, A3, A2, fun i hi j hj => ?_⟩
  exact (A4 j hj i hi).trans (congrFun (congrFun (p3 d) ⟨i, hi⟩) ⟨j, hj⟩).symm

theorem MatsAt.hcat {a b t : Ten ℝ} {f g : List ℕ → Option Mat} (ha : MatsAt u a f) (hb : MatsAt u b g) (e : hcat a b = some t) :
    MatsAt u t fun d => (f d).bind fun A => (g d).bind fun B => A.hcat B := by
  obtain ⟨r, c, s, h1, h2, h3⟩ := ha
  obtain ⟨r', c', s', h1', h2', h3'⟩ := hb
  unfold Ten.hcat at e
  rw [h1, h1'] at e
  simp only at e
  split at e
  swap
  · cases e
  next hc =>
  obtain ⟨rfl, rfl⟩ := hc
  cases e
  refine ⟨r, c + c', s, rfl, h2, fun d hd => ?_⟩
  obtain ⟨A, A1, A2, A3, A4⟩ := h3 d hd
  obtain ⟨B, B1, B2, B3, B4⟩ := h3' d hd
  refine ⟨⟨A.r, A.c + B.c, fun i j => if j < A.c then A.e i j else B.e i (j - A.c)⟩, by simp only [A1, B1, Option.bind_some, Mat.hcat, A2, B2, if_true], A2, by rw [A3, B3], fun i hi j hj => ?_⟩
  rw [get_of (s := s) rfl hi hj]
  simp only [List.headD_cons, List.tail_cons, A3]
  split
  · next h =>
    rw [A4 i hi j h, get_of h1 hi h]
    exact (if_pos h).symm
  · next h =>
    rw [B4 i hi (j - c) (by omega), get_of h1' hi (by omega)]
    exact (if_neg h).symm

theorem MatsAt.vcat {a b t : Ten ℝ} {f g : List ℕ → Option Mat} (ha : MatsAt u a f) (hb : MatsAt u b g) (e : cat a b = some t) :
    MatsAt u t fun d => (f d).bind fun A => (g d).bind fun B => A.vcat B := by
  obtain ⟨r, c, s, h1, h2, h3⟩ := ha
  obtain ⟨r', c', s', h1', h2', h3'⟩ := hb
  unfold Ten.cat at e
  rw [h1, h1'] at e
  simp only at e
  split at e
  swap
  · cases e
  next hc =>
  obtain ⟨rfl, rfl⟩ := hc
  cases e
  refine ⟨r + r', c, s, rfl, h2, fun d hd => ?_⟩
  obtain ⟨A, A1, A2, A3, A4⟩ := h3 d hd
  obtain ⟨B, B1, B2, B3, B4⟩ := h3' d hd
  refine ⟨⟨A.r + B.r, A.c, fun i j => if i < A.r then A.e i j else B.e (i - A.r) j⟩, by simp only [A1, B1, Option.bind_some, Mat.vcat, A3, B3, if_true], by rw [A2, B2], A3, fun i hi j hj => ?_⟩
  rw [get_of (s := s) rfl hi hj]
  simp only [List.headD_cons, List.tail_cons, A2]
  split
  · next h =>
    rw [A4 i h j hj, get_of h1 h hj]
    exact (if_pos h).symm
  · next h =>
    rw [B4 (i - r) (by omega) j hj, get_of h1' (by omega) hj]
    exact (if_neg h).symm

theorem ColsAt.cat {a b t : Ten ℝ} {f g : List ℕ → Option (List ℝ)} (ha : ColsAt u a f) (hb : ColsAt u b g) (e : cat a b = some t) :
    ColsAt u t fun d => (f d).bind fun v => (g d).bind fun w => some (v ++ w) := by
  obtain ⟨n, s, h1, h2, h3⟩ := ha
  obtain ⟨n', s', h1', h2', h3'⟩ := hb
  unfold Ten.cat at e
  rw [h1, h1'] at e
  simp only at e
  split at e
  swap
  · cases e
  next hc =>
  obtain ⟨-, rfl⟩ := hc
  cases e
  refine ⟨n + n', s, rfl, h2, fun d hd => ?_⟩
  simp only [h3 d hd, h3' d hd, Option.bind_some]
  congr 1
  simp only [colList, List.range_add, List.map_append, List.map_map]
  congr 1
  · refine List.map_congr_left fun i hi => ?_
    have hi := List.mem_range.1 hi
    rw [get_of h1 hi (by omega), get_of (s := s) rfl (by omega) (by omega)]
    simp [hi]
  · refine List.map_congr_left fun i hi => ?_
    have hi := List.mem_range.1 hi
    rw [get_of h1' hi (by omega)]
    simp only [Function.comp]
    rw [get_of (s := s) rfl (by omega) (by omega)]
    simp

theorem hconcat_at {β : Type} {F : β → Option (Ten ℝ)} {G : List ℕ → β → Option Mat} : ∀ {ys : List β} {ts : List (Ten ℝ)} {t : Ten ℝ},
    (∀ y ∈ ys, ∀ t, F y = some t → MatsAt u t fun d => G d y) → ys.mapM F = some ts → hconcat ts = some t → MatsAt u t fun d => (ys.mapM (G d)).bind Mat.hcatL
  | [], ts, t, _, h, e => by
    cases h
    cases e
  | [y], ts, t, hG, h, e => by
    rw [List.mapM_cons] at h
    obtain ⟨a, ha, h⟩ := Option.bind_eq_some_iff.1 h
    obtain rfl : ts = [a] := by simpa [eq_comm] using h
    simp only [hconcat] at e
    split at e
    swap
    · cases e
    cases e
    obtain ⟨r, c, s, h1, h2, h3⟩ := hG y (by simp) _ ha
    refine ⟨r, c, s, h1, h2, fun d hd => ?_⟩
    obtain ⟨A, A1, A2⟩ := h3 d hd
    exact ⟨A, by simp [A1, Mat.hcatL], A2⟩
  | y :: y' :: ys, ts, t, hG, h, e => by
    rw [List.mapM_cons] at h
    obtain ⟨a, ha, h⟩ := Option.bind_eq_some_iff.1 h
    obtain ⟨as, has, h⟩ := Option.bind_eq_some_iff.1 h
    cases h
    have hne : ∃ b bs, as = b :: bs := by
      rw [List.mapM_cons] at has
      obtain ⟨b, _, has⟩ := Option.bind_eq_some_iff.1 has
      obtain ⟨bs, _, has⟩ := Option.bind_eq_some_iff.1 has
      cases has
      exact ⟨b, bs, rfl⟩
    obtain ⟨b, bs, rfl⟩ := hne
    obtain ⟨p, hp, e⟩ := Option.bind_eq_some_iff.1 (show (hconcat (b :: bs)).bind _ = some t from e)
    obtain ⟨r, c, s, h1, h2, h3⟩ := (hG y (by simp) _ ha).hcat (hconcat_at (fun z hz => hG z (by simp [hz])) has hp) e
    refine ⟨r, c, s, h1, h2, fun d hd => ?_⟩
    obtain ⟨A, A1, A2⟩ := h3 d hd
    refine ⟨A, ?_, A2⟩
    obtain ⟨P, P1, A1⟩ := Option.bind_eq_some_iff.1 A1
    obtain ⟨Q, Q1, A1⟩ := Option.bind_eq_some_iff.1 A1
    obtain ⟨Qs, Q1, Q2⟩ := Option.bind_eq_some_iff.1 Q1
    simp only [List.mapM_cons, P1, Q1, Option.bind_eq_bind, Option.bind_some, Option.pure_def]
    cases Qs with
    | nil => cases Q2
    | cons q Qs => simp only [Mat.hcatL, Q2, Option.bind_eq_bind, Option.bind_some, A1]

theorem concat_at {β : Type} {F : β → Option (Ten ℝ)} {G : List ℕ → β → Option Mat} : ∀ {ys : List β} {ts : List (Ten ℝ)} {t : Ten ℝ},
    (∀ y ∈ ys, ∀ t, F y = some t → MatsAt u t fun d => G d y) → ys.mapM F = some ts → concat ts = some t → MatsAt u t fun d => (ys.mapM (G d)).bind Mat.vcatL
  | [], ts, t, _, h, e => by
    cases h
    cases e
  | [y], ts, t, hG, h, e => by
    rw [List.mapM_cons] at h
    obtain ⟨a, ha, h⟩ := Option.bind_eq_some_iff.1 h
    obtain rfl : ts = [a] := by simpa [eq_comm] using h
    simp only [concat] at e
    split at e
    swap
    · cases e
    cases e
    obtain ⟨r, c, s, h1, h2, h3⟩ := hG y (by simp) _ ha
    refine ⟨r, c, s, h1, h2, fun d hd => ?_⟩
    obtain ⟨A, A1, A2⟩ := h3 d hd
    exact ⟨A, by simp [A1, Mat.vcatL], A2⟩
  | y :: y' :: ys, ts, t, hG, h, e => by
    rw [List.mapM_cons] at h
    obtain ⟨a, ha, h⟩ := Option.bind_eq_some_iff.1 h
    obtain ⟨as, has, h⟩ := Option.bind_eq_some_iff.1 h
    cases h
    have hne : ∃ b bs, as = b :: bs := by
      rw [List.mapM_cons] at has
      obtain ⟨b, _, has⟩ := Option.bind_eq_some_iff.1 has
      obtain ⟨bs, _, has⟩ := Option.bind_eq_some_iff.1 has
      cases has
      exact ⟨b, bs, rfl⟩
    obtain ⟨b, bs, rfl⟩ := hne
    obtain ⟨p, hp, e⟩ := Option.bind_eq_some_iff.1 (show (concat (b :: bs)).bind _ = some t from e)
    obtain ⟨r, c, s, h1, h2, h3⟩ := (hG y (by simp) _ ha).vcat (concat_at (fun z hz => hG z (by simp [hz])) has hp) e
    refine ⟨r, c, s, h1, h2, fun d hd => ?_⟩
    obtain ⟨A, A1, A2⟩ := h3 d hd
    refine ⟨A, ?_, A2⟩
    obtain ⟨P, P1, A1⟩ := Option.bind_eq_some_iff.1 A1
    obtain ⟨Q, Q1, A1⟩ := Option.bind_eq_some_iff.1 A1
    obtain ⟨Qs, Q1, Q2⟩ := Option.bind_eq_some_iff.1 Q1
    simp only [List.mapM_cons, P1, Q1, Option.bind_eq_bind, Option.bind_some, Option.pure_def]
    cases Qs with
    | nil => cases Q2
    | cons q Qs => simp only [Mat.vcatL, Q2, Option.bind_eq_bind, Option.bind_some, A1]

theorem flat_at {β : Type} {F : β → Option (Ten ℝ)} {G : List ℕ → β → Option (List ℝ)} : ∀ {ys : List β} {ts : List (Ten ℝ)} {t : Ten ℝ},
    (∀ y ∈ ys, ∀ t, F y = some t → ColsAt u t fun d => G d y) → ys.mapM F = some ts → concat ts = some t →
      ys ≠ [] ∧ ColsAt u t fun d => (ys.mapM (G d)).map List.flatten
  | [], ts, t, _, h, e => by
    cases h
    cases e
  | [y], ts, t, hG, h, e => by
    rw [List.mapM_cons] at h
    obtain ⟨a, ha, h⟩ := Option.bind_eq_some_iff.1 h
    obtain rfl : ts = [a] := by simpa [eq_comm] using h
    simp only [concat] at e
    split at e
    swap
    · cases e
    cases e
    obtain ⟨n, s, h1, h2, h3⟩ := hG y (by simp) _ ha
    refine ⟨by simp, n, s, h1, h2, fun d hd => ?_⟩
    have := h3 d hd
    simp [this]
  | y :: y' :: ys, ts, t, hG, h, e => by
    rw [List.mapM_cons] at h
    obtain ⟨a, ha, h⟩ := Option.bind_eq_some_iff.1 h
    obtain ⟨as, has, h⟩ := Option.bind_eq_some_iff.1 h
    cases h
    have hne : ∃ b bs, as = b :: bs := by
      rw [List.mapM_cons] at has
      obtain ⟨b, _, has⟩ := Option.bind_eq_some_iff.1 has
      obtain ⟨bs, _, has⟩ := Option.bind_eq_some_iff.1 has
      cases has
      exact ⟨b, bs, rfl⟩
    obtain ⟨b, bs, rfl⟩ := hne
    obtain ⟨p, hp, e⟩ := Option.bind_eq_some_iff.1 (show (concat (b :: bs)).bind _ = some t from e)
    obtain ⟨n, s, h1, h2, h3⟩ := (hG y (by simp) _ ha).cat (flat_at (fun z hz => hG z (by simp [hz])) has hp).2 e
    refine ⟨by simp, n, s, h1, h2, fun d hd => ?_⟩
    have := h3 d hd
    obtain ⟨P, P1, A1⟩ := Option.bind_eq_some_iff.1 this
    obtain ⟨Q, Q1, A1⟩ := Option.bind_eq_some_iff.1 A1
    obtain ⟨Qs, Q1, Q2⟩ := Option.map_eq_some_iff.1 Q1
    simp only [List.mapM_cons, P1, Q1, Option.bind_eq_bind, Option.bind_some, Option.pure_def, Option.map_some, List.flatten_cons, Q2, A1]

end Stheno
