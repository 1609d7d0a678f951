import Verif.Normal

/-!
# Arrays with batch dimensions (contract of `lab` and `matrix`)

`stheno` computes with arrays of any rank. The last two axes are the rows and columns of matrices; all axes before them are batch dimensions. Here are the
functions on arrays that `stheno/random.py` and `stheno/model/observations.py` call, with their shapes, as documented in `lab`: elementwise functions
broadcast as in `numpy`, and functions on matrices work on all matrices of a batch and broadcast batch dimensions.

Shapes and indices are listed **from the last axis to the first**: `c :: r :: bs` is the shape of a batch of matrices with `r` rows and `c` columns.
-/

namespace Stheno

open Matrix

/-- An array: its shape and its entries. Entries at indices outside of the shape are irrelevant. -/
structure Ten (α : Type) where
  shape : List ℕ
  e : List ℕ → α

namespace Ten
variable {α β γ : Type}

/-- The index into an array of a given shape that is broadcast: axes that are not there are ignored, and axes of length one are repeated. -/
def clip : List ℕ → List ℕ → List ℕ
  | [], _ => []
  | s :: ss, i :: is => (if s = 1 then 0 else i) :: clip ss is
  | _ :: ss, [] => 0 :: clip ss []

/-- The shape to which two shapes are broadcast; `none` if they do not fit. -/
def bcast : List ℕ → List ℕ → Option (List ℕ)
  | [], t => some t
  | s, [] => some s
  | a :: s, b :: t =>
    if a = b then (bcast s t).map (a :: ·) else if a = 1 then (bcast s t).map (b :: ·) else if b = 1 then (bcast s t).map (a :: ·) else none

/-- The entry of the array, broadcast. -/
def get (t : Ten α) (i : List ℕ) : α := t.e (clip t.shape i)

/-- The matrix at the index `d` of the batch, broadcast. -/
def mat (t : Ten α) (n m : ℕ) (d : List ℕ) : Matrix (Fin n) (Fin m) α := fun i j => t.get (j :: i :: d)

/-- The column `j` of the matrix at the index `d` of the batch, broadcast. -/
def col (t : Ten α) (n : ℕ) (d : List ℕ) (j : ℕ) : Fin n → α := fun i => t.get (j :: i :: d)

/-- A number. -/
def num (x : α) : Ten α := ⟨[], fun _ => x⟩

/-- Elementwise functions of one array: `B.sqrt`, `B.maximum(_, 0)`, `_ / 2`, `_ ** 2`, `B.isnan`. -/
def map (f : α → β) (t : Ten α) : Ten β := ⟨t.shape, fun i => f (t.e i)⟩

/-- Elementwise functions of two arrays, with broadcasting: `B.add`, `B.subtract`, `B.multiply`. They raise if the shapes do not fit. -/
def zip (f : α → β → γ) (a : Ten α) (b : Ten β) : Option (Ten γ) := (bcast a.shape b.shape).map fun s => ⟨s, fun i => f (a.get i) (b.get i)⟩

/-- `B.rank(t)` -/
def rank (t : Ten α) : ℕ := t.shape.length

/-- `B.uprank(t)`: numbers and vectors are made matrices with a single column. -/
def uprank (t : Ten α) : Ten α :=
  match t.shape with
  | [] => ⟨[1, 1], fun _ => t.e []⟩
  | [n] => ⟨[1, n], fun i => t.e i.tail⟩
  | _ => t

/-- `t[..., None]` -/
def newAxis (t : Ten α) : Ten α := ⟨1 :: t.shape, fun i => t.e i.tail⟩

/-- `t[..., 0]`, which raises for numbers and if the last axis is empty. -/
def first (t : Ten α) : Option (Ten α) :=
  match t.shape with
  | [] => none
  | 0 :: _ => none
  | _ :: s => some ⟨s, fun i => t.e (0 :: i)⟩

/-- `B.squeeze(t, axis=-1)`, which raises if the last axis does not have length one. -/
def squeezeLast (t : Ten α) : Option (Ten α) :=
  match t.shape with
  | 1 :: s => some ⟨s, fun i => t.e (0 :: i)⟩
  | _ => none

/-- The index before axes of length one are left out. -/
def unsqueeze : List ℕ → List ℕ → List ℕ
  | [], _ => []
  | s :: ss, i => if s = 1 then 0 :: unsqueeze ss i else i.headD 0 :: unsqueeze ss i.tail

/-- `B.squeeze(t)`: leave out all axes of length one. -/
def squeeze (t : Ten α) : Ten α := ⟨t.shape.filter (· ≠ 1), fun i => t.e (unsqueeze t.shape i)⟩

/-- `B.transpose(t)`: swap rows and columns. -/
def tr (t : Ten α) : Option (Ten α) :=
  match t.shape with
  | c :: r :: s => some ⟨r :: c :: s, fun i => t.e (i.tail.headD 0 :: i.headD 0 :: i.tail.tail)⟩
  | _ => none

/-- Functions of batches of matrices whose values are numbers: `B.logdet`, `B.trace`. -/
def ofMat (f : ∀ n, Matrix (Fin n) (Fin n) α → β) (t : Ten α) : Option (Ten β) :=
  match t.shape with
  | c :: r :: s => if c = r then some ⟨s, fun d => f r (t.mat r r d)⟩ else none
  | _ => none

/-- Matrices as entries of arrays. -/
def entry {n m : ℕ} (A : Matrix (Fin n) (Fin m) ℝ) (i j : ℕ) : ℝ := if h : i < n ∧ j < m then A ⟨i, h.1⟩ ⟨j, h.2⟩ else 0

/-- `B.matmul(a, b)`, which broadcasts batch dimensions. -/
def mul (a b : Ten ℝ) : Option (Ten ℝ) :=
  match a.shape, b.shape with
  | k :: r :: s, c :: k' :: t =>
    if k = k' then (bcast s t).map fun u => ⟨c :: r :: u, fun i => entry (a.mat r k i.tail.tail * b.mat k c i.tail.tail) (i.tail.headD 0) (i.headD 0)⟩ else none
  | _, _ => none

/-- Functions of batches of square matrices whose values are matrices of the same size: `B.root`, `B.cholesky`. -/
def onMat (f : ∀ n, Matrix (Fin n) (Fin n) ℝ → Matrix (Fin n) (Fin n) ℝ) (t : Ten ℝ) : Option (Ten ℝ) :=
  match t.shape with
  | c :: r :: s => if c = r then some ⟨r :: r :: s, fun i => entry (f r (t.mat r r i.tail.tail)) (i.tail.headD 0) (i.headD 0)⟩ else none
  | _ => none

/-- `B.ratio(a, b)`: the traces of `b⁻¹ a`. -/
noncomputable def ratio (a b : Ten ℝ) : Option (Ten ℝ) :=
  match a.shape, b.shape with
  | n :: n' :: s, m :: m' :: t => if n = n' ∧ m = n ∧ m' = n then (bcast s t).map fun u => ⟨u, fun d => ((b.mat n n d)⁻¹ * a.mat n n d).trace⟩ else none
  | _, _ => none

/-- `B.iqf_diag(a, b)`: `bⱼᵀ a⁻¹ bⱼ` for all columns `bⱼ`. NaN is `none`, and NaNs in a column propagate to its value. -/
noncomputable def iqfDiag (a : Ten ℝ) (b : Ten (Option ℝ)) : Option (Ten (Option ℝ)) :=
  match a.shape, b.shape with
  | n :: n' :: s, k :: m :: t =>
    if n = n' ∧ m = n then (bcast s t).map fun u => ⟨k :: u, fun i =>
      let x := b.col n i.tail (i.headD 0)
      if ∀ l, (x l).isSome then some ((fun l => (x l).getD 0) ⬝ᵥ ((a.mat n n i.tail)⁻¹ *ᵥ fun l => (x l).getD 0)) else none⟩ else none
  | _, _ => none

/-- `B.diag(t)`: the diagonals of matrices. -/
def diag (t : Ten α) : Option (Ten α) :=
  match t.shape with
  | c :: r :: s => if c = r then some ⟨r :: s, fun i => t.e (i.headD 0 :: i.headD 0 :: i.tail)⟩ else none
  | _ => none

/-- `Diagonal(t)`: diagonal matrices, as the matrices they represent. -/
def diagMat (t : Ten ℝ) : Option (Ten ℝ) :=
  match t.shape with
  | n :: s => some ⟨n :: n :: s, fun i => if i.headD 0 = i.tail.headD 0 then t.e i.tail else 0⟩
  | _ => none

/-- `B.fill_diag(x, n)`: a number on the diagonal of a matrix. -/
def fillDiag (x : ℝ) (n : ℕ) : Ten ℝ := ⟨[n, n], fun i => if i.headD 0 = i.tail.headD 0 then x else 0⟩

/-- The sum over all indices of a shape. -/
def total : List ℕ → (List ℕ → ℝ) → ℝ
  | [], f => f []
  | n :: s, f => ∑ i : Fin n, total s fun d => f (i :: d)

/-- `B.sum(t)`: the sum of all entries. -/
def sum (t : Ten ℝ) : Ten ℝ := num (total t.shape t.e)

/-- `B.outer(t)`: numbers and vectors are made columns, and then multiplied by their transposes. -/
def outer (t : Ten ℝ) : Option (Ten ℝ) := do mul t.uprank (← t.uprank.tr)

end Ten

end Stheno
