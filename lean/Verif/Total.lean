import Verif.Run
import Verif.Plain
import Verif.Model

/-!
# Evaluation returns

Every process has a set of rows, its domain, at which it is to be called. Means and kernels of single-output processes
return at numeric inputs whose rows are in the domain, with the right shapes, if the covariance matrices of all
observations are positive definite. Observations may be of a single-output process or of a cross process of
single-output processes at a tuple of FDDs of its components, which is what conditioning on several observations at
once amounts to.

Derivatives call what they differentiate at infinitely many rows. So the depth of the recursion is bounded uniformly in
the rows.
-/

namespace Stheno

open Matrix

/-- The rows at which every process is to be called; no rows for processes that are not single-output. -/
abbrev Dom := PId → Pt → Prop

/-- Rows of a domain that is not empty. -/
def Rows (D : Pt → Prop) (xs : List Pt) : Prop := (∃ r, D r) ∧ ∀ r ∈ xs, D r

/-- A numeric input with rows in a domain. -/
def NumIn (D : Pt → Prop) (x : Input) : Prop := ∃ xs, x = .num xs ∧ Rows D xs

/-- An FDD of one of `ps` at a numeric input with rows in its domain. -/
def FddOf (G : Dom) (ps : List PId) (x : Input) : Prop := ∃ p ∈ ps, ∃ xs, x = .fdd p (.num xs) ∧ Rows (G p) xs

/-- A tuple, not empty, of such FDDs. -/
def TupOf (G : Dom) (ps : List PId) (x : Input) : Prop := ∃ xs, xs ≠ [] ∧ x = .tup xs ∧ ∀ a ∈ xs, FddOf G ps a

section
variable {D E : Pt → Prop} {G : Dom}

theorem NumIn.atom {x : Input} (h : NumIn D x) : x.IsAtom := by
  obtain ⟨xs, rfl, _⟩ := h; trivial

theorem FddOf.atom {ps : List PId} {x : Input} (h : FddOf G ps x) : x.IsAtom := by
  obtain ⟨p, _, xs, rfl, _⟩ := h; trivial

theorem Rows.mono (h : ∀ x, D x → E x) {xs : List Pt} (hx : Rows D xs) : Rows E xs :=
  ⟨hx.1.imp h, fun r hr => h r (hx.2 r hr)⟩

theorem NumIn.mono (h : ∀ x, D x → E x) {x : Input} (hx : NumIn D x) : NumIn E x :=
  hx.imp fun _ hx => ⟨hx.1, hx.2.mono h⟩

theorem Rows.one {x : Pt} (h : D x) : Rows D [x] := ⟨⟨x, h⟩, by simpa using h⟩

end

section
variable (lm : MId → PId → Option MExpr) (lk : MId → PId → PId → Option KExpr)

/-- `pairwise` returns a matrix of the right shape. -/
def TotK (k : KExpr) (X Y : Input → Prop) : Prop :=
  ∃ n, ∀ x y, X x → Y y → ∃ A, (ev lm lk n).K k x y = some A ∧ A.r = numElements x ∧ A.c = numElements y

/-- `elwise` returns a column of the right length. -/
def TotD (k : KExpr) (X Y : Input → Prop) : Prop :=
  ∃ n, ∀ x y, X x → Y y → numElements x = numElements y → ∃ u, (ev lm lk n).D k x y = some u ∧ u.length = numElements x

/-- A mean returns a column of the right length. -/
def TotM (a : MExpr) (X : Input → Prop) : Prop :=
  ∃ n, ∀ x, X x → ∃ v, (ev lm lk n).M a x = some v ∧ v.length = numElements x

/-- A function returns a column of the right length. -/
def TotF (f : Fn) (X : Input → Prop) : Prop :=
  ∃ n, ∀ x, X x → ∃ v, stepFn lm (ev lm lk n) f x = some v ∧ v.length = numElements x

end

section
variable {lm : MId → PId → Option MExpr} {lk : MId → PId → PId → Option KExpr} {X Y X' Y' : Input → Prop}

theorem ev_M {n : ℕ} {a : MExpr} {x : Input} : (ev lm lk (n + 1)).M a x = stepM lm (ev lm lk n) a x := rfl

theorem TotK.le {k : KExpr} (h : TotK lm lk k X Y) : ∃ n, ∀ n', n ≤ n' → ∀ x y, X x → Y y →
    ∃ A, (ev lm lk n').K k x y = some A ∧ A.r = numElements x ∧ A.c = numElements y := by
  obtain ⟨n, h⟩ := h
  exact ⟨n, fun n' hn x y hx hy => (h x y hx hy).imp fun A hA => ⟨(ev_le hn).K _ _ _ _ hA.1, hA.2⟩⟩

theorem TotD.le {k : KExpr} (h : TotD lm lk k X Y) : ∃ n, ∀ n', n ≤ n' → ∀ x y, X x → Y y →
    numElements x = numElements y → ∃ u, (ev lm lk n').D k x y = some u ∧ u.length = numElements x := by
  obtain ⟨n, h⟩ := h
  exact ⟨n, fun n' hn x y hx hy e => (h x y hx hy e).imp fun A hA => ⟨(ev_le hn).D _ _ _ _ hA.1, hA.2⟩⟩

theorem TotM.le {a : MExpr} (h : TotM lm lk a X) : ∃ n, ∀ n', n ≤ n' → ∀ x, X x →
    ∃ v, (ev lm lk n').M a x = some v ∧ v.length = numElements x := by
  obtain ⟨n, h⟩ := h
  exact ⟨n, fun n' hn x hx => (h x hx).imp fun A hA => ⟨(ev_le hn).M _ _ _ hA.1, hA.2⟩⟩

theorem TotF.le {f : Fn} (h : TotF lm lk f X) : ∃ n, ∀ n', n ≤ n' → ∀ x, X x →
    ∃ v, stepFn lm (ev lm lk n') f x = some v ∧ v.length = numElements x := by
  obtain ⟨n, h⟩ := h
  exact ⟨n, fun n' hn x hx => (h x hx).imp fun A hA =>
    ⟨stepFn_mono (fun _ _ _ h => h) (ev_le hn) f x _ hA.1, hA.2⟩⟩

theorem TotK.run {k : KExpr} (h : TotK lm lk k X Y) {x y : Input} (hx : X x) (hy : Y y) :
    ∃ A, RunK lm lk k x y A ∧ A.r = numElements x ∧ A.c = numElements y := by
  obtain ⟨n, h⟩ := h
  exact (h x y hx hy).imp fun A hA => ⟨⟨n, hA.1⟩, hA.2⟩

theorem TotD.run {k : KExpr} (h : TotD lm lk k X Y) {x y : Input} (hx : X x) (hy : Y y)
    (e : numElements x = numElements y) : ∃ u, RunD lm lk k x y u ∧ u.length = numElements x := by
  obtain ⟨n, h⟩ := h
  exact (h x y hx hy e).imp fun A hA => ⟨⟨n, hA.1⟩, hA.2⟩

theorem TotM.run {a : MExpr} (h : TotM lm lk a X) {x : Input} (hx : X x) :
    ∃ v, RunM lm lk a x v ∧ v.length = numElements x := by
  obtain ⟨n, h⟩ := h
  exact (h x hx).imp fun A hA => ⟨⟨n, hA.1⟩, hA.2⟩

theorem TotK.mono {k : KExpr} (h : TotK lm lk k X Y) (hX : ∀ x, X' x → X x) (hY : ∀ y, Y' y → Y y) :
    TotK lm lk k X' Y' :=
  h.imp fun _ h x y hx hy => h x y (hX x hx) (hY y hy)

theorem TotD.mono {k : KExpr} (h : TotD lm lk k X Y) (hX : ∀ x, X' x → X x) (hY : ∀ y, Y' y → Y y) :
    TotD lm lk k X' Y' :=
  h.imp fun _ h x y hx hy => h x y (hX x hx) (hY y hy)

theorem TotM.mono {a : MExpr} (h : TotM lm lk a X) (hX : ∀ x, X' x → X x) : TotM lm lk a X' :=
  h.imp fun _ h x hx => h x (hX x hx)

theorem TotF.mono {f : Fn} (h : TotF lm lk f X) (hX : ∀ x, X' x → X x) : TotF lm lk f X' :=
  h.imp fun _ h x hx => h x (hX x hx)

/-- Finitely many evaluations at a common depth. -/
theorem common_bound {α : Type} {P : α → ℕ → Prop} (l : List α) (h : ∀ a ∈ l, ∃ n, ∀ n', n ≤ n' → P a n') :
    ∃ n, ∀ n', n ≤ n' → ∀ a ∈ l, P a n' := by
  induction l with
  | nil => exact ⟨0, fun n' _ a ha => by simp at ha⟩
  | cons a l ih =>
    obtain ⟨n, hn⟩ := ih fun b hb => h b (by simp [hb])
    obtain ⟨n', hn'⟩ := h a (by simp)
    refine ⟨max n n', fun k hk b hb => ?_⟩
    rcases List.mem_cons.1 hb with rfl | hb
    · exact hn' k (le_of_max_le_right hk)
    · exact hn k (le_of_max_le_left hk) b hb

theorem Mat.add_shape {A B : Mat} {r c : ℕ} (hA : A.r = r ∧ A.c = c) (hB : B.r = r ∧ B.c = c) :
    ∃ M, A.add B = some M ∧ M.r = r ∧ M.c = c :=
  ⟨_, if_pos ⟨hA.1.trans hB.1.symm, hA.2.trans hB.2.symm⟩, hA.1, hA.2⟩

theorem Mat.sub_shape {A B : Mat} {r c : ℕ} (hA : A.r = r ∧ A.c = c) (hB : B.r = r ∧ B.c = c) :
    ∃ M, A.sub B = some M ∧ M.r = r ∧ M.c = c :=
  ⟨_, if_pos ⟨hA.1.trans hB.1.symm, hA.2.trans hB.2.symm⟩, hA.1, hA.2⟩

theorem Mat.mul_shape {A B : Mat} {r c : ℕ} (hA : A.r = r ∧ A.c = c) (hB : B.r = r ∧ B.c = c) :
    ∃ M, A.mul B = some M ∧ M.r = r ∧ M.c = c :=
  ⟨_, if_pos ⟨hA.1.trans hB.1.symm, hA.2.trans hB.2.symm⟩, hA.1, hA.2⟩

theorem zipCol_of (g : ℝ → ℝ → ℝ) {u v : List ℝ} {n : ℕ} (hu : u.length = n) (hv : v.length = n) :
    ∃ w, zipCol g u v = some w ∧ w.length = n :=
  ⟨_, if_pos (hu.trans hv.symm), by simp [hu, hv]⟩

/-! ## Functions and means -/

theorem TotF.plain {f : Fn} (hf : f.Plain) {D : Pt → Prop} : TotF lm lk f (NumIn D) := by
  refine ⟨0, ?_⟩
  rintro x ⟨xs, rfl, _⟩
  cases f with
  | user f => exact ⟨_, rfl, by simp [numElements]⟩
  | const c => exact ⟨_, rfl, by simp⟩
  | meanOf => exact hf.elim

theorem TotF.const {c : ℝ} : TotF lm lk (.const c) X := ⟨0, fun x _ => ⟨_, rfl, by simp⟩⟩

theorem TotF.meanOf {m : MId} {p : PId} {e : MExpr} (h : lm m p = some e) (t : TotM lm lk e X) :
    TotF lm lk (.meanOf m p) X := by
  obtain ⟨n, t⟩ := t
  exact ⟨n, fun x hx => (t x hx).imp fun v hv => ⟨by rw [stepFn, h]; exact hv.1, hv.2⟩⟩

theorem TotM.zero : TotM lm lk .zero X := ⟨1, fun x _ => ⟨_, rfl, by simp⟩⟩

theorem TotM.add {a b : MExpr} (ha : TotM lm lk a X) (hb : TotM lm lk b X) : TotM lm lk (.add a b) X := by
  obtain ⟨n, ha⟩ := ha.le
  obtain ⟨n', hb⟩ := hb.le
  refine ⟨max n n' + 1, fun x hx => ?_⟩
  obtain ⟨u, hu, lu⟩ := ha _ (le_max_left n n') x hx
  obtain ⟨v, hv, lv⟩ := hb _ (le_max_right n n') x hx
  obtain ⟨w, hw, lw⟩ := zipCol_of (· + ·) lu lv
  refine ⟨w, ?_, lw⟩
  rw [ev_M]
  simp only [stepM, hu, hv]
  exact hw

theorem TotM.mul {a b : MExpr} (ha : TotM lm lk a X) (hb : TotM lm lk b X) : TotM lm lk (.mul a b) X := by
  obtain ⟨n, ha⟩ := ha.le
  obtain ⟨n', hb⟩ := hb.le
  refine ⟨max n n' + 1, fun x hx => ?_⟩
  obtain ⟨u, hu, lu⟩ := ha _ (le_max_left n n') x hx
  obtain ⟨v, hv, lv⟩ := hb _ (le_max_right n n') x hx
  obtain ⟨w, hw, lw⟩ := zipCol_of (· * ·) lu lv
  refine ⟨w, ?_, lw⟩
  rw [ev_M]
  simp only [stepM, hu, hv]
  exact hw

theorem TotM.scale {a : MExpr} (c : ℝ) (ha : TotM lm lk a X) : TotM lm lk (.scale c a) X := by
  obtain ⟨n, ha⟩ := ha
  refine ⟨n + 1, fun x hx => ?_⟩
  obtain ⟨u, hu, lu⟩ := ha x hx
  refine ⟨u.map (c * ·), ?_, by simpa using lu⟩
  rw [ev_M]
  simp only [stepM, hu]
  rfl

theorem TotM.fn {f : Fn} (hf : TotF lm lk f X) : TotM lm lk (.fn f) X := by
  obtain ⟨n, hf⟩ := hf
  exact ⟨n + 1, hf⟩

theorem TotM.plain {a : MExpr} (ha : a.Plain) {D : Pt → Prop} : TotM lm lk a (NumIn D) := by
  induction a with
  | zero => exact TotM.zero
  | fn f => exact TotM.fn (TotF.plain ha)
  | add a b iha ihb => exact (iha ha.1).add (ihb ha.2)
  | mul a b iha ihb => exact (iha ha.1).mul (ihb ha.2)
  | scale c a ih => exact (ih ha).scale c
  | _ => exact ha.elim

/-! ## Kernels -/

section
variable (hX : ∀ x, X x → x.IsAtom) (hY : ∀ y, Y y → y.IsAtom)
include hX hY

theorem TotK.intro {k : KExpr} (h : ∃ n, ∀ x y, X x → Y y → ∃ A, stepKAtom lm lk (ev lm lk n) k x y = some A ∧
    A.r = numElements x ∧ A.c = numElements y) : TotK lm lk k X Y := by
  obtain ⟨n, h⟩ := h
  exact ⟨n + 1, fun x y hx hy => by rw [ev_K_atom (hX x hx) (hY y hy)]; exact h x y hx hy⟩

theorem TotD.intro {k : KExpr} (h : ∃ n, ∀ x y, X x → Y y → numElements x = numElements y →
    ∃ u, stepDAtom lm lk (ev lm lk n) k x y = some u ∧ u.length = numElements x) : TotD lm lk k X Y := by
  obtain ⟨n, h⟩ := h
  exact ⟨n + 1, fun x y hx hy => by rw [ev_D_atom (hX x hx) (hY y hy)]; exact h x y hx hy⟩

theorem TotK.zero : TotK lm lk .zero X Y := TotK.intro hX hY ⟨0, fun _ _ _ _ => ⟨_, rfl, rfl, rfl⟩⟩
theorem TotD.zero : TotD lm lk .zero X Y := TotD.intro hX hY ⟨0, fun _ _ _ _ h => ⟨_, if_pos h, by simp⟩⟩

theorem TotK.add {a b : KExpr} (ha : TotK lm lk a X Y) (hb : TotK lm lk b X Y) : TotK lm lk (.add a b) X Y := by
  obtain ⟨n, ha⟩ := ha.le
  obtain ⟨n', hb⟩ := hb.le
  refine TotK.intro hX hY ⟨max n n', fun x y hx hy => ?_⟩
  obtain ⟨A, hA, sA⟩ := ha _ (le_max_left n n') x y hx hy
  obtain ⟨B, hB, sB⟩ := hb _ (le_max_right n n') x y hx hy
  simp only [stepKAtom, hA, hB]
  exact Mat.add_shape sA sB

theorem TotD.add {a b : KExpr} (ha : TotD lm lk a X Y) (hb : TotD lm lk b X Y) : TotD lm lk (.add a b) X Y := by
  obtain ⟨n, ha⟩ := ha.le
  obtain ⟨n', hb⟩ := hb.le
  refine TotD.intro hX hY ⟨max n n', fun x y hx hy h => ?_⟩
  obtain ⟨A, hA, sA⟩ := ha _ (le_max_left n n') x y hx hy h
  obtain ⟨B, hB, sB⟩ := hb _ (le_max_right n n') x y hx hy h
  simp only [stepDAtom, hA, hB]
  exact zipCol_of (· + ·) sA sB

theorem TotK.mul {a b : KExpr} (ha : TotK lm lk a X Y) (hb : TotK lm lk b X Y) : TotK lm lk (.mul a b) X Y := by
  obtain ⟨n, ha⟩ := ha.le
  obtain ⟨n', hb⟩ := hb.le
  refine TotK.intro hX hY ⟨max n n', fun x y hx hy => ?_⟩
  obtain ⟨A, hA, sA⟩ := ha _ (le_max_left n n') x y hx hy
  obtain ⟨B, hB, sB⟩ := hb _ (le_max_right n n') x y hx hy
  simp only [stepKAtom, hA, hB]
  exact Mat.mul_shape sA sB

theorem TotD.mul {a b : KExpr} (ha : TotD lm lk a X Y) (hb : TotD lm lk b X Y) : TotD lm lk (.mul a b) X Y := by
  obtain ⟨n, ha⟩ := ha.le
  obtain ⟨n', hb⟩ := hb.le
  refine TotD.intro hX hY ⟨max n n', fun x y hx hy h => ?_⟩
  obtain ⟨A, hA, sA⟩ := ha _ (le_max_left n n') x y hx hy h
  obtain ⟨B, hB, sB⟩ := hb _ (le_max_right n n') x y hx hy h
  simp only [stepDAtom, hA, hB]
  exact zipCol_of (· * ·) sA sB

theorem TotK.scale {a : KExpr} (c : ℝ) (ha : TotK lm lk a X Y) : TotK lm lk (.scale c a) X Y := by
  obtain ⟨n, ha⟩ := ha
  refine TotK.intro hX hY ⟨n, fun x y hx hy => ?_⟩
  obtain ⟨A, hA, sA⟩ := ha x y hx hy
  simp only [stepKAtom, hA]
  exact ⟨_, rfl, sA⟩

theorem TotD.scale {a : KExpr} (c : ℝ) (ha : TotD lm lk a X Y) : TotD lm lk (.scale c a) X Y := by
  obtain ⟨n, ha⟩ := ha
  refine TotD.intro hX hY ⟨n, fun x y hx hy h => ?_⟩
  obtain ⟨A, hA, sA⟩ := ha x y hx hy h
  simp only [stepDAtom, hA]
  exact ⟨_, rfl, by simpa using sA⟩

theorem TotK.tprod {f g : Fn} (hf : TotF lm lk f X) (hg : TotF lm lk g Y) : TotK lm lk (.tprod f g) X Y := by
  obtain ⟨n, hf⟩ := hf.le
  obtain ⟨n', hg⟩ := hg.le
  refine TotK.intro hX hY ⟨max n n', fun x y hx hy => ?_⟩
  obtain ⟨u, hu, lu⟩ := hf _ (le_max_left n n') x hx
  obtain ⟨v, hv, lv⟩ := hg _ (le_max_right n n') y hy
  simp only [stepKAtom, hu, hv]
  exact ⟨_, rfl, lu, lv⟩

theorem TotD.tprod {f g : Fn} (hf : TotF lm lk f X) (hg : TotF lm lk g Y) : TotD lm lk (.tprod f g) X Y := by
  obtain ⟨n, hf⟩ := hf.le
  obtain ⟨n', hg⟩ := hg.le
  refine TotD.intro hX hY ⟨max n n', fun x y hx hy h => ?_⟩
  obtain ⟨u, hu, lu⟩ := hf _ (le_max_left n n') x hx
  obtain ⟨v, hv, lv⟩ := hg _ (le_max_right n n') y hy
  simp only [stepDAtom, hu, hv]
  exact zipCol_of (· * ·) lu (lv.trans h.symm)

theorem TotK.rev {k : KExpr} (h : TotK lm lk k Y X) : TotK lm lk (.rev k) X Y := by
  obtain ⟨n, h⟩ := h
  refine TotK.intro hX hY ⟨n, fun x y hx hy => ?_⟩
  obtain ⟨A, hA, sA⟩ := h y x hy hx
  simp only [stepKAtom, hA]
  exact ⟨_, rfl, sA.2, sA.1⟩

theorem TotD.rev {k : KExpr} (h : TotD lm lk k Y X) : TotD lm lk (.rev k) X Y := by
  obtain ⟨n, h⟩ := h
  refine TotD.intro hX hY ⟨n, fun x y hx hy hn => ?_⟩
  obtain ⟨A, hA, sA⟩ := h y x hy hx hn.symm
  simp only [stepDAtom, hA]
  exact ⟨_, rfl, sA.trans hn.symm⟩

theorem TotK.pre {t u : InTr} {k : KExpr} (ht : ∀ x, X x → ∃ x', t.apply x = some x' ∧ X' x' ∧ numElements x' = numElements x)
    (hu : ∀ y, Y y → ∃ y', u.apply y = some y' ∧ Y' y' ∧ numElements y' = numElements y) (h : TotK lm lk k X' Y') :
    TotK lm lk (.pre t u k) X Y := by
  obtain ⟨n, h⟩ := h
  refine TotK.intro hX hY ⟨n, fun x y hx hy => ?_⟩
  obtain ⟨x', ex, nx, sx⟩ := ht x hx
  obtain ⟨y', ey, ny, sy⟩ := hu y hy
  obtain ⟨A, hA, sA⟩ := h x' y' nx ny
  simp only [stepKAtom, ex, ey]
  exact ⟨A, hA, sA.1.trans sx, sA.2.trans sy⟩

theorem TotD.pre {t u : InTr} {k : KExpr} (ht : ∀ x, X x → ∃ x', t.apply x = some x' ∧ X' x' ∧ numElements x' = numElements x)
    (hu : ∀ y, Y y → ∃ y', u.apply y = some y' ∧ Y' y' ∧ numElements y' = numElements y) (h : TotD lm lk k X' Y') :
    TotD lm lk (.pre t u k) X Y := by
  obtain ⟨n, h⟩ := h
  refine TotD.intro hX hY ⟨n, fun x y hx hy hn => ?_⟩
  obtain ⟨x', ex, nx, sx⟩ := ht x hx
  obtain ⟨y', ey, ny, sy⟩ := hu y hy
  obtain ⟨A, hA, sA⟩ := h x' y' nx ny (by rw [sx, sy, hn])
  simp only [stepDAtom, ex, ey]
  exact ⟨A, hA, sA.trans sx⟩

theorem TotK.adk {k : KExpr} (h : TotK lm lk k X Y) : TotK lm lk (.adk k) X Y := TotK.intro hX hY h

theorem TotK.kadd {a b : KExpr} (ha : TotK lm lk a X Y) (hb : TotK lm lk b X Y) : TotK lm lk (kadd a b) X Y := by
  unfold Stheno.kadd
  split
  · exact hb
  · exact ha
  · exact ha.add hX hY hb

theorem TotD.kadd {a b : KExpr} (ha : TotD lm lk a X Y) (hb : TotD lm lk b X Y) : TotD lm lk (kadd a b) X Y := by
  unfold Stheno.kadd
  split
  · exact hb
  · exact ha
  · exact ha.add hX hY hb

theorem TotK.kmul {a b : KExpr} (ha : TotK lm lk a X Y) (hb : TotK lm lk b X Y) : TotK lm lk (kmul a b) X Y := by
  unfold Stheno.kmul
  split
  · exact TotK.zero hX hY
  · exact TotK.zero hX hY
  · exact ha.mul hX hY hb

theorem TotD.kmul {a b : KExpr} (ha : TotD lm lk a X Y) (hb : TotD lm lk b X Y) : TotD lm lk (kmul a b) X Y := by
  unfold Stheno.kmul
  split
  · exact TotD.zero hX hY
  · exact TotD.zero hX hY
  · exact ha.mul hX hY hb

theorem TotK.kscale {a : KExpr} (c : ℝ) (ha : TotK lm lk a X Y) : TotK lm lk (kscale c a) X Y := by
  unfold Stheno.kscale
  split
  · exact ha
  · exact ha.scale hX hY c

theorem TotD.kscale {a : KExpr} (c : ℝ) (ha : TotD lm lk a X Y) : TotD lm lk (kscale c a) X Y := by
  unfold Stheno.kscale
  split
  · exact ha
  · exact ha.scale hX hY c

theorem TotK.krev {k : KExpr} (h : TotK lm lk k Y X) : TotK lm lk (krev k) X Y := by
  unfold Stheno.krev
  split
  · exact TotK.zero hX hY
  · exact h.rev hX hY

theorem TotD.krev {k : KExpr} (h : TotD lm lk k Y X) : TotD lm lk (krev k) X Y := by
  unfold Stheno.krev
  split
  · exact TotD.zero hX hY
  · exact h.rev hX hY

end

theorem numIn_atom {D : Pt → Prop} : ∀ x, NumIn D x → x.IsAtom := fun _ => NumIn.atom

theorem TotK.plain {k : KExpr} (hk : k.Plain) {D E : Pt → Prop} : TotK lm lk k (NumIn D) (NumIn E) := by
  induction k with
  | prim k =>
    refine TotK.intro numIn_atom numIn_atom ⟨0, ?_⟩
    rintro x y ⟨xs, rfl, _⟩ ⟨ys, rfl, _⟩
    exact ⟨_, rfl, rfl, rfl⟩
  | zero => exact TotK.zero numIn_atom numIn_atom
  | add a b iha ihb => exact (iha hk.1).add numIn_atom numIn_atom (ihb hk.2)
  | mul a b iha ihb => exact (iha hk.1).mul numIn_atom numIn_atom (ihb hk.2)
  | scale c a ih => exact (ih hk).scale numIn_atom numIn_atom c
  | tprod f g => exact TotK.tprod numIn_atom numIn_atom (TotF.plain hk.1) (TotF.plain hk.2)
  | _ => exact hk.elim

theorem TotD.plain {k : KExpr} (hk : k.Plain) {D E : Pt → Prop} : TotD lm lk k (NumIn D) (NumIn E) := by
  induction k with
  | prim k =>
    refine TotD.intro numIn_atom numIn_atom ⟨0, ?_⟩
    rintro x y ⟨xs, rfl, _⟩ ⟨ys, rfl, _⟩ h
    exact ⟨_, if_pos h, by simpa [numElements] using h.le⟩
  | zero => exact TotD.zero numIn_atom numIn_atom
  | add a b iha ihb => exact (iha hk.1).add numIn_atom numIn_atom (ihb hk.2)
  | mul a b iha ihb => exact (iha hk.1).mul numIn_atom numIn_atom (ihb hk.2)
  | scale c a ih => exact (ih hk).scale numIn_atom numIn_atom c
  | tprod f g => exact TotD.tprod numIn_atom numIn_atom (TotF.plain hk.1) (TotF.plain hk.2)
  | _ => exact hk.elim

/-! ### Input transformations -/

/-- What a transformation makes of a row. -/
noncomputable def InTr.row : InTr → Pt → Option Pt
  | .none, x => some x
  | .shift a, x => Amt.sub x a
  | .stretch a, x => Amt.div x a
  | .select ds, x => ds.mapM (x[·]?)
  | .map g, x => some (g x)
  | .toFdd _, _ => Option.none

/-- The transformation applies to all rows in `D`, and makes rows in `E` of them. -/
def InTr.Maps (t : InTr) (D E : Pt → Prop) : Prop := ∀ x, D x → ∃ x', t.row x = some x' ∧ E x'

theorem InTr.apply_rows {t : InTr} (ht : ∀ j, t ≠ .toFdd j) (xs : List Pt) :
    t.apply (.num xs) = (xs.mapM t.row).map .num := by
  cases t with
  | none => rw [show xs.mapM (InTr.none.row) = some xs from (mapM_of (g := id) fun _ _ => rfl).trans (by simp)]; rfl
  | map g => rw [show xs.mapM ((InTr.map g).row) = some (xs.map g) from mapM_of (g := g) fun _ _ => rfl]; rfl
  | shift a => rfl
  | stretch a => rfl
  | select ds => rfl
  | toFdd j => exact (ht j rfl).elim

theorem InTr.Maps.rows {t : InTr} {D E : Pt → Prop} (ht : t.Maps D E) {xs : List Pt} (hx : Rows D xs) :
    ∃ xs', t.apply (.num xs) = some (.num xs') ∧ Rows E xs' ∧ xs'.length = xs.length := by
  obtain ⟨r, hr⟩ := hx.1
  obtain ⟨r', er, hr'⟩ := ht r hr
  have hf : ∀ j, t ≠ .toFdd j := by rintro j rfl; cases er
  choose! f h1 h2 using ht
  refine ⟨xs.map f, ?_, ⟨⟨r', hr'⟩, fun y hy => ?_⟩, by simp⟩
  · rw [InTr.apply_rows hf, mapM_of (g := f) fun x hx' => h1 x (hx.2 x hx')]
    rfl
  · obtain ⟨x, hx', rfl⟩ := List.mem_map.1 hy
    exact h2 x (hx.2 x hx')

theorem InTr.Maps.num {t : InTr} {D E : Pt → Prop} (ht : t.Maps D E) (x : Input) (hx : NumIn D x) :
    ∃ x', t.apply x = some x' ∧ NumIn E x' ∧ numElements x' = numElements x := by
  obtain ⟨xs, rfl, hx⟩ := hx
  obtain ⟨xs', h1, h2, h3⟩ := ht.rows hx
  exact ⟨_, h1, ⟨xs', rfl, h2⟩, h3⟩

theorem InTr.neutral_maps (t : InTr) {D : Pt → Prop} : t.neutral.Maps D D := by
  intro x hx
  refine ⟨x, ?_, hx⟩
  cases t with
  | shift a => show some (x.map (· - 0)) = _; simp
  | stretch a => show some (x.map (· / 1)) = _; simp
  | _ => rfl

section
variable {D E D' E' : Pt → Prop}

theorem TotK.kpre {t u : InTr} (ht : t.Maps D D') (hu : u.Maps E E') {k : KExpr} (h : TotK lm lk k (NumIn D') (NumIn E')) :
    TotK lm lk (kpre t u k) (NumIn D) (NumIn E) := by
  unfold Stheno.kpre
  split
  · exact TotK.zero numIn_atom numIn_atom
  · exact h.pre numIn_atom numIn_atom ht.num hu.num

theorem TotD.kpre {t u : InTr} (ht : t.Maps D D') (hu : u.Maps E E') {k : KExpr} (h : TotD lm lk k (NumIn D') (NumIn E')) :
    TotD lm lk (kpre t u k) (NumIn D) (NumIn E) := by
  unfold Stheno.kpre
  split
  · exact TotD.zero numIn_atom numIn_atom
  · exact h.pre numIn_atom numIn_atom ht.num hu.num

theorem TotM.pre {t : InTr} (ht : t.Maps D D') {a : MExpr} (h : TotM lm lk a (NumIn D')) : TotM lm lk (.pre t a) (NumIn D) := by
  obtain ⟨n, h⟩ := h
  refine ⟨n + 1, fun x hx => ?_⟩
  obtain ⟨x', ex, nx, sx⟩ := ht.num x hx
  obtain ⟨v, hv, lv⟩ := h x' nx
  refine ⟨v, ?_, lv.trans sx⟩
  rw [ev_M]
  simp only [stepM, ex]
  exact hv

/-! ### Derivatives -/

/-- The rows in `D` can be moved along feature `d`, if any, within `E`. -/
def Lined (d : Option ℕ) (D E : Pt → Prop) : Prop := ∀ x, D x → (∀ i ∈ d, i < x.length) ∧ ∀ t, E (bumps d t x)

theorem Lined.none : Lined none D D := fun _ hx => ⟨fun _ h => by simp at h, fun _ => hx⟩

theorem diffEntry_some {n : ℕ} {k : KExpr} {d e : Option ℕ} (hd : Lined d D D') (he : Lined e E E')
    (h : ∀ x y, NumIn D' x → NumIn E' y → ∃ A, (ev lm lk n).K k x y = some A ∧ A.r = numElements x ∧ A.c = numElements y)
    {x y : Pt} (hx : D x) (hy : E y) : (diffEntry (ev lm lk n) k d e x y).isSome := by
  unfold diffEntry
  rw [if_pos]
  · rfl
  · refine ⟨(hd x hx).1, (he y hy).1, fun s t => ?_⟩
    obtain ⟨A, hA, rA, cA⟩ := h (.num [bumps d s x]) (.num [bumps e t y]) ⟨_, rfl, .one ((hd x hx).2 s)⟩
      ⟨_, rfl, .one ((he y hy).2 t)⟩
    unfold scalK
    rw [hA]
    show (if A.r = 1 ∧ A.c = 1 then _ else _ : Option ℝ).isSome
    rw [if_pos ⟨rA, cA⟩]
    rfl

theorem TotK.kdiff {k : KExpr} {d e : Option ℕ} (hd : Lined d D D') (he : Lined e E E')
    (h : TotK lm lk k (NumIn D') (NumIn E')) : TotK lm lk (Stheno.kdiff d e k) (NumIn D) (NumIn E) := by
  unfold Stheno.kdiff
  split
  · exact TotK.zero numIn_atom numIn_atom
  · obtain ⟨n, h⟩ := h
    refine TotK.intro numIn_atom numIn_atom ⟨n, ?_⟩
    rintro x y ⟨xs, rfl, hx⟩ ⟨ys, rfl, hy⟩
    simp only [stepKAtom, diffMat]
    exact ⟨_, if_pos fun x hx' y hy' => diffEntry_some hd he h (hx.2 x hx') (hy.2 y hy'), rfl, rfl⟩

theorem mapM_isSome {α β : Type} {f : α → Option β} {l : List α} (h : ∀ a ∈ l, (f a).isSome) :
    ∃ bs, l.mapM f = some bs ∧ bs.length = l.length := by
  induction l with
  | nil => exact ⟨[], rfl, rfl⟩
  | cons a l ih =>
    obtain ⟨b, hb⟩ := Option.isSome_iff_exists.1 (h a (by simp))
    obtain ⟨bs, hbs, lb⟩ := ih fun a ha => h a (by simp [ha])
    refine ⟨b :: bs, ?_, by simp [lb]⟩
    rw [List.mapM_cons, hb, hbs]
    rfl

theorem TotD.kdiff {k : KExpr} {d e : Option ℕ} (hd : Lined d D D') (he : Lined e E E')
    (hK : TotK lm lk k (NumIn D') (NumIn E')) : TotD lm lk (Stheno.kdiff d e k) (NumIn D) (NumIn E) := by
  unfold Stheno.kdiff
  split
  · exact TotD.zero numIn_atom numIn_atom
  · obtain ⟨n, hK⟩ := hK
    refine TotD.intro numIn_atom numIn_atom ⟨n, ?_⟩
    rintro x y ⟨xs, rfl, hx⟩ ⟨ys, rfl, hy⟩ hn
    have hl : xs.length = ys.length := hn
    simp only [stepDAtom, hl, if_true]
    obtain ⟨bs, hbs, lb⟩ := mapM_isSome (l := xs.zip ys) (f := fun xy => diffEntry (ev lm lk n) k d e xy.1 xy.2)
      fun xy h => diffEntry_some hd he hK (hx.2 _ (List.of_mem_zip h).1) (hy.2 _ (List.of_mem_zip h).2)
    exact ⟨bs, hbs, by simp [lb, hl, numElements]⟩

theorem TotM.diff {a : MExpr} {d : ℕ} (hd : Lined (some d) D D') (h : TotM lm lk a (NumIn D')) :
    TotM lm lk (.diff d a) (NumIn D) := by
  obtain ⟨n, h⟩ := h
  refine ⟨n + 1, ?_⟩
  rintro x ⟨xs, rfl, hx⟩
  refine mapM_isSome fun x hx' => ?_
  unfold diffMEntry
  rw [if_pos]
  · rfl
  · refine ⟨(hd x (hx.2 x hx')).1 d rfl, fun s => ?_⟩
    obtain ⟨v, hv, lv⟩ := h (.num [bump d s x]) ⟨_, rfl, .one ((hd x (hx.2 x hx')).2 s)⟩
    unfold scalM
    rw [hv]
    match v, lv with
    | [c], _ => rfl

end

/-! ### Posteriors -/

/-- `K_z` can be factorised whenever it evaluates. -/
def PDAt (lm : MId → PId → Option MExpr) (lk : MId → PId → PId → Option KExpr) (kzz : KExpr) (z : Input)
    (noise : Mat) : Prop :=
  ∀ A K, RunK lm lk kzz z z A → A.add noise = some K → (K.sq K.r).PosDef

section
variable {kij kzi kzj kzz : KExpr} {z : Input} {noise : Mat} (hz : TotK lm lk kzz (· = z) (· = z))
  (hn : noise.r = numElements z ∧ noise.c = numElements z) (hp : PDAt lm lk kzz z noise)
include hz hn hp

theorem TotK.kz : ∃ n K, (∀ n', n ≤ n' → stepKz (ev lm lk n') kzz z noise = some K) ∧ K.r = numElements z := by
  obtain ⟨Z, hZ, sZ⟩ := hz.run rfl rfl
  obtain ⟨K, hK, rK, cK⟩ := Mat.add_shape sZ hn
  obtain ⟨n, hn⟩ := hZ.le
  exact ⟨n, K, fun n' h => stepKz_of (hn n' h) hK (rK.trans cK.symm) (hp Z K hZ hK), rK⟩

theorem TotK.post (hX : ∀ x, X x → x.IsAtom) (hY : ∀ y, Y y → y.IsAtom) (h : TotK lm lk kij X Y)
    (hi : TotK lm lk kzi (· = z) X) (hj : TotK lm lk kzj (· = z) Y) :
    TotK lm lk (.post kij kzi kzj z kzz noise) X Y := by
  obtain ⟨n1, h⟩ := h.le
  obtain ⟨n2, K, hK, rK⟩ := TotK.kz hz hn hp
  obtain ⟨n3, hi⟩ := hi.le
  obtain ⟨n4, hj⟩ := hj.le
  refine TotK.intro hX hY ⟨n1 + n2 + n3 + n4, fun x y hx hy => ?_⟩
  obtain ⟨A, hA, sA⟩ := h _ (by omega : n1 ≤ n1 + n2 + n3 + n4) x y hx hy
  obtain ⟨B, hB, rB, cB⟩ := hi _ (by omega : n3 ≤ n1 + n2 + n3 + n4) z x rfl hx
  obtain ⟨C, hC, rC, cC⟩ := hj _ (by omega : n4 ≤ n1 + n2 + n3 + n4) z y rfl hy
  simp only [stepKAtom, hA, hB, hC, hK _ (by omega : n2 ≤ n1 + n2 + n3 + n4)]
  show ∃ M, (Mat.quad (K.sq K.r)⁻¹ B C >>= A.sub) = some M ∧ _
  rw [show Mat.quad (K.sq K.r)⁻¹ B C = _ from if_pos ⟨rB.trans rK.symm, rC.trans rK.symm⟩]
  exact Mat.sub_shape sA ⟨cB, cC⟩

theorem TotD.post (hX : ∀ x, X x → x.IsAtom) (hY : ∀ y, Y y → y.IsAtom) (h : TotD lm lk kij X Y)
    (hi : TotK lm lk kzi (· = z) X) (hj : TotK lm lk kzj (· = z) Y) :
    TotD lm lk (.post kij kzi kzj z kzz noise) X Y := by
  obtain ⟨n1, h⟩ := h.le
  obtain ⟨n2, K, hK, rK⟩ := TotK.kz hz hn hp
  obtain ⟨n3, hi⟩ := hi.le
  obtain ⟨n4, hj⟩ := hj.le
  refine TotD.intro hX hY ⟨n1 + n2 + n3 + n4, fun x y hx hy hxy => ?_⟩
  obtain ⟨A, hA, sA⟩ := h _ (by omega : n1 ≤ n1 + n2 + n3 + n4) x y hx hy hxy
  obtain ⟨B, hB, rB, cB⟩ := hi _ (by omega : n3 ≤ n1 + n2 + n3 + n4) z x rfl hx
  obtain ⟨C, hC, rC, cC⟩ := hj _ (by omega : n4 ≤ n1 + n2 + n3 + n4) z y rfl hy
  simp only [stepDAtom, hA, hB, hC, hK _ (by omega : n2 ≤ n1 + n2 + n3 + n4)]
  show ∃ M, (Mat.quadDiag (K.sq K.r)⁻¹ B C >>= zipCol (· - ·) A) = some M ∧ _
  rw [show Mat.quadDiag (K.sq K.r)⁻¹ B C = _ from
    if_pos ⟨rB.trans rK.symm, rC.trans rK.symm, by rw [cB, cC, hxy]⟩]
  exact zipCol_of (· - ·) sA (by simpa using cB)

theorem TotM.post {mi mz : MExpr} {y : List ℝ} (hy : y.length = numElements z) (h : TotM lm lk mi X)
    (hm : TotM lm lk mz (· = z)) (hi : TotK lm lk kzi (· = z) X) :
    TotM lm lk (.post mi mz kzi z kzz noise y) X := by
  obtain ⟨n1, h⟩ := h.le
  obtain ⟨n2, K, hK, rK⟩ := TotK.kz hz hn hp
  obtain ⟨n3, hi⟩ := hi.le
  obtain ⟨n4, hm⟩ := hm.le
  refine ⟨n1 + n2 + n3 + n4 + 1, fun x hx => ?_⟩
  obtain ⟨v, hv, lv⟩ := h _ (by omega : n1 ≤ n1 + n2 + n3 + n4) x hx
  obtain ⟨B, hB, rB, cB⟩ := hi _ (by omega : n3 ≤ n1 + n2 + n3 + n4) z x rfl hx
  obtain ⟨u, hu, lu⟩ := hm _ (by omega : n4 ≤ n1 + n2 + n3 + n4) z rfl
  simp only [ev_M, stepM, hv, hB, hu, hK _ (by omega : n2 ≤ n1 + n2 + n3 + n4)]
  show ∃ w, (if u.length = K.r ∧ y.length = K.r then _ else _) = some w ∧ _
  rw [if_pos ⟨lu.trans rK.symm, hy.trans rK.symm⟩]
  rw [show Mat.tmulVec B ((K.sq K.r)⁻¹ *ᵥ fun a : Fin K.r => y.getD a 0 - u.getD a 0) = _ from if_pos (rB.trans rK.symm)]
  exact zipCol_of (· + ·) lv (by simpa using cB)

end

/-! ### Cross processes at FDDs of their components -/

section
variable {m : MId} {ps qs : List PId} {G : Dom}

/-- Kernels between processes of two lists return at common depth. -/
theorem common_kernels (h : ∀ p ∈ ps, (∃ r, G p r) → ∀ q ∈ qs, (∃ r, G q r) →
      ∃ k, lk m p q = some k ∧ TotK lm lk k (NumIn (G p)) (NumIn (G q))) :
    ∃ n, ∀ p ∈ ps, ∀ q ∈ qs, ∀ xs ys, Rows (G p) xs → Rows (G q) ys → ∃ k A, lk m p q = some k ∧
      (ev lm lk n).K k (.num xs) (.num ys) = some A ∧ A.r = xs.length ∧ A.c = ys.length := by
  have h1 : ∀ p ∈ ps, ∃ n, ∀ n', n ≤ n' → ∀ q ∈ qs, ∀ xs ys, Rows (G p) xs → Rows (G q) ys → ∃ k A, lk m p q = some k ∧
      (ev lm lk n').K k (.num xs) (.num ys) = some A ∧ A.r = xs.length ∧ A.c = ys.length := by
    intro p hp
    refine common_bound (P := fun q n' => ∀ xs ys, Rows (G p) xs → Rows (G q) ys → ∃ k A, lk m p q = some k ∧
      (ev lm lk n').K k (.num xs) (.num ys) = some A ∧ A.r = xs.length ∧ A.c = ys.length) qs fun q hq => ?_
    by_cases hl : (∃ r, G p r) ∧ ∃ r, G q r
    · obtain ⟨k, hk, tk⟩ := h p hp hl.1 q hq hl.2
      obtain ⟨n, tk⟩ := tk.le
      refine ⟨n, fun n' hn xs ys hx hy => ?_⟩
      obtain ⟨A, hA⟩ := tk n' hn (.num xs) (.num ys) ⟨_, rfl, hx⟩ ⟨_, rfl, hy⟩
      exact ⟨k, A, hk, hA⟩
    · exact ⟨0, fun n' _ xs ys hx hy => (hl ⟨hx.1, hy.1⟩).elim⟩
  obtain ⟨n, h2⟩ := common_bound ps h1
  exact ⟨n, h2 n le_rfl⟩

theorem TotK.mok (h : ∀ p ∈ ps, (∃ r, G p r) → ∀ q ∈ qs, (∃ r, G q r) →
      ∃ k, lk m p q = some k ∧ TotK lm lk k (NumIn (G p)) (NumIn (G q))) (rs : List PId) :
    TotK lm lk (.mok m rs) (FddOf G ps) (FddOf G qs) := by
  obtain ⟨n, h⟩ := common_kernels h
  refine TotK.intro (fun _ => FddOf.atom) (fun _ => FddOf.atom) ⟨n, ?_⟩
  rintro x y ⟨p, hp, xs, rfl, hx⟩ ⟨q, hq, ys, rfl, hy⟩
  obtain ⟨k, A, hk, hA, sA⟩ := h p hp q hq xs ys hx hy
  exact ⟨A, by rw [stepKAtom, hk]; exact hA, sA⟩

/-- A cross process at FDDs, and the FDD of another process at an input `X`. -/
theorem TotK.mokAt {j : PId} (h : ∀ p ∈ ps, (∃ r, G p r) → ∃ k, lk m p j = some k ∧ TotK lm lk k (NumIn (G p)) X) (rs : List PId) :
    TotK lm lk (.mok m rs) (FddOf G ps) (fun y => ∃ y', y = .fdd j y' ∧ X y') := by
  obtain ⟨n, h⟩ : ∃ n, ∀ n', n ≤ n' → ∀ p ∈ ps, ∀ xs y, Rows (G p) xs → X y → ∃ k A, lk m p j = some k ∧
      (ev lm lk n').K k (.num xs) y = some A ∧ A.r = xs.length ∧ A.c = numElements y := by
    refine common_bound ps fun p hp => ?_
    by_cases hl : ∃ r, G p r
    · obtain ⟨k, hk, tk⟩ := h p hp hl
      obtain ⟨n, tk⟩ := tk.le
      refine ⟨n, fun n' hn xs y hx hy => ?_⟩
      obtain ⟨A, hA⟩ := tk n' hn (.num xs) y ⟨_, rfl, hx⟩ hy
      exact ⟨k, A, hk, hA⟩
    · exact ⟨0, fun n' _ xs y hx _ => (hl hx.1).elim⟩
  refine TotK.intro (fun _ => FddOf.atom) (by rintro _ ⟨y, rfl, _⟩; trivial) ⟨n, ?_⟩
  rintro x y ⟨p, hp, xs, rfl, hx⟩ ⟨y, rfl, hy⟩
  obtain ⟨k, A, hk, hA, sA⟩ := h n le_rfl p hp xs y hx hy
  exact ⟨A, by rw [stepKAtom, hk]; exact hA, sA⟩

theorem toFdd_apply {x : Input} (j : PId) (h : x.IsAtom) : (InTr.toFdd j).apply x = some (.fdd j x) := by
  cases x with
  | num => rfl
  | fdd => rfl
  | tup => exact h.elim

/-- A cross process with an earlier process at inputs `X`. -/
theorem TotK.crossLeft {j : PId} (hX : ∀ x, X x → x.IsAtom)
    (h : ∀ p ∈ ps, (∃ r, G p r) → ∃ k, lk m p j = some k ∧ TotK lm lk k (NumIn (G p)) X) (rs : List PId) :
    TotK lm lk (.adk (.pre .none (.toFdd j) (.mok m rs))) (FddOf G ps) X := by
  refine TotK.adk (fun _ => FddOf.atom) hX (TotK.pre (fun _ => FddOf.atom) hX ?_ (fun y hy => ?_) (TotK.mokAt h rs))
  · rintro x hx
    refine ⟨x, ?_, hx, rfl⟩
    obtain ⟨p, _, xs, rfl, _⟩ := hx
    rfl
  · exact ⟨.fdd j y, toFdd_apply j (hX y hy), ⟨y, rfl, hy⟩, rfl⟩

/-- An earlier process, at inputs `X`, with a cross process. -/
theorem TotK.crossRight {i : PId} (hX : ∀ x, X x → x.IsAtom)
    (h : ∀ p ∈ ps, (∃ r, G p r) → ∃ k, lk m p i = some k ∧ TotK lm lk k (NumIn (G p)) X) (rs : List PId) :
    TotK lm lk (.rev (.adk (.pre .none (.toFdd i) (.mok m rs)))) X (FddOf G ps) :=
  TotK.rev hX (fun _ => FddOf.atom) (TotK.crossLeft hX h rs)

theorem TotM.mom (h : ∀ p ∈ ps, (∃ r, G p r) → ∃ a, lm m p = some a ∧ TotM lm lk a (NumIn (G p))) (rs : List PId) :
    TotM lm lk (.mom m rs) (FddOf G ps) := by
  obtain ⟨n, h⟩ : ∃ n, ∀ n', n ≤ n' → ∀ p ∈ ps, ∀ xs, Rows (G p) xs → ∃ a v, lm m p = some a ∧
      (ev lm lk n').M a (.num xs) = some v ∧ v.length = xs.length := by
    refine common_bound ps fun p hp => ?_
    by_cases hl : ∃ r, G p r
    · obtain ⟨a, ha, ta⟩ := h p hp hl
      obtain ⟨n, ta⟩ := ta.le
      refine ⟨n, fun n' hn xs hx => ?_⟩
      obtain ⟨v, hv⟩ := ta n' hn (.num xs) ⟨_, rfl, hx⟩
      exact ⟨a, v, ha, hv⟩
    · exact ⟨0, fun n' _ xs hx => (hl hx.1).elim⟩
  refine ⟨n + 1, ?_⟩
  rintro x ⟨p, hp, xs, rfl, hx⟩
  obtain ⟨a, v, ha, hv, lv⟩ := h n le_rfl p hp xs hx
  refine ⟨v, ?_, lv⟩
  rw [ev_M, stepM, ha]
  exact hv

end

/-! ### Tuples -/

theorem numElementsL_eq (xs : List Input) : numElementsL xs = (xs.map numElements).sum := by
  induction xs with
  | nil => rfl
  | cons x xs ih => rw [numElementsL, ih, List.map_cons, List.sum_cons]

theorem Mat.hcat_shape {A B : Mat} (h : A.r = B.r) : ∃ M, A.hcat B = some M ∧ M.r = A.r ∧ M.c = A.c + B.c :=
  ⟨_, if_pos h, rfl, rfl⟩

theorem Mat.vcat_shape {A B : Mat} (h : A.c = B.c) : ∃ M, A.vcat B = some M ∧ M.r = A.r + B.r ∧ M.c = A.c :=
  ⟨_, if_pos h, rfl, rfl⟩

theorem hcatL_of {l : List Mat} (h0 : l ≠ []) {r : ℕ} (h : ∀ A ∈ l, A.r = r) :
    ∃ M, Mat.hcatL l = some M ∧ M.r = r ∧ M.c = (l.map (·.c)).sum := by
  induction l with
  | nil => exact (h0 rfl).elim
  | cons A l ih =>
    cases l with
    | nil => exact ⟨A, rfl, h A (by simp), by simp⟩
    | cons B l =>
      obtain ⟨M, hM, rM, cM⟩ := ih (by simp) fun D hD => h D (by simp [hD])
      obtain ⟨N, hN, rN, cN⟩ := Mat.hcat_shape ((h A (by simp)).trans rM.symm)
      refine ⟨N, ?_, rN.trans (h A (by simp)), ?_⟩
      · show (Mat.hcatL (B :: l) >>= Mat.hcat A) = _
        rw [hM]
        exact hN
      · rw [cN, cM]; simp

theorem vcatL_of {l : List Mat} (h0 : l ≠ []) {c : ℕ} (h : ∀ A ∈ l, A.c = c) :
    ∃ M, Mat.vcatL l = some M ∧ M.c = c ∧ M.r = (l.map (·.r)).sum := by
  induction l with
  | nil => exact (h0 rfl).elim
  | cons A l ih =>
    cases l with
    | nil => exact ⟨A, rfl, h A (by simp), by simp⟩
    | cons B l =>
      obtain ⟨M, hM, cM, rM⟩ := ih (by simp) fun D hD => h D (by simp [hD])
      obtain ⟨N, hN, rN, cN⟩ := Mat.vcat_shape ((h A (by simp)).trans cM.symm)
      refine ⟨N, ?_, cN.trans (h A (by simp)), ?_⟩
      · show (Mat.vcatL (B :: l) >>= Mat.vcat A) = _
        rw [hM]
        exact hN
      · rw [rN, rM]; simp

/-- Blocks at tuples, at a given depth. -/
theorem blocks {k : KExpr} {n : ℕ}
    (h : ∀ x y, X x → Y y → ∃ A, (ev lm lk n).K k x y = some A ∧ A.r = numElements x ∧ A.c = numElements y)
    {xs ys : List Input} (hx : ∀ x ∈ xs, X x) (hy : ∀ y ∈ ys, Y y) (x0 : xs ≠ []) (y0 : ys ≠ []) :
    ∃ M, tupK (ev lm lk n) k xs ys = some M ∧ M.r = numElementsL xs ∧ M.c = numElementsL ys := by
  classical
  have : Nonempty Mat := ⟨⟨0, 0, fun _ _ => 0⟩⟩
  choose! G hG using fun x (hx : X x) y (hy : Y y) => h x y hx hy
  have hrow : ∀ x ∈ xs, ∃ R, Mat.hcatL (ys.map (G x)) = some R ∧ R.r = numElements x ∧ R.c = numElementsL ys := by
    intro x hx'
    obtain ⟨M, hM, rM, cM⟩ := hcatL_of (l := ys.map (G x)) (by simpa using y0) (r := numElements x) (by
      intro A hA
      obtain ⟨y, hy', rfl⟩ := List.mem_map.1 hA
      exact (hG x (hx x hx') y (hy y hy')).2.1)
    refine ⟨M, hM, rM, cM.trans ?_⟩
    rw [numElementsL_eq, List.map_map]
    congr 1
    exact List.map_congr_left fun y hy' => (hG x (hx x hx') y (hy y hy')).2.2
  choose! R hR using hrow
  obtain ⟨M, hM, cM, rM⟩ := vcatL_of (l := xs.map R) (by simpa using x0) (c := numElementsL ys) (by
    intro A hA
    obtain ⟨x, hx', rfl⟩ := List.mem_map.1 hA
    exact (hR x hx').2.2)
  refine ⟨M, ?_, ?_, cM⟩
  · unfold Stheno.tupK
    have : (xs.mapM fun x => do
        let row ← ys.mapM fun y => (ev lm lk n).K k x y
        Mat.hcatL row) = some (xs.map R) := by
      refine mapM_of fun x hx' => ?_
      rw [mapM_of (g := G x) fun y hy' => (hG x (hx x hx') y (hy y hy')).1]
      exact (hR x hx').1
    rw [this]
    exact hM
  · rw [rM, numElementsL_eq, List.map_map]
    congr 1
    exact List.map_congr_left fun x hx' => (hR x hx').2.1

section
variable {G : Dom} {ps qs : List PId} {z z' : Input}

theorem TotK.tup_num {k : KExpr} {D : Pt → Prop} (h : TotK lm lk k (FddOf G ps) (NumIn D)) (hz : TupOf G ps z) :
    TotK lm lk k (· = z) (NumIn D) := by
  obtain ⟨n, h⟩ := h
  refine ⟨n + 1, ?_⟩
  rintro _ y rfl hy
  obtain ⟨xs, x0, rfl, hxs⟩ := hz
  obtain ⟨M, hM, rM, cM⟩ := blocks h (ys := [y]) hxs (by simpa using hy) x0 (by simp)
  obtain ⟨ys, rfl, _⟩ := hy
  exact ⟨M, hM, rM, by simpa [numElementsL] using cM⟩

theorem TotK.num_tup {k : KExpr} {D : Pt → Prop} (h : TotK lm lk k (NumIn D) (FddOf G ps)) (hz : TupOf G ps z) :
    TotK lm lk k (NumIn D) (· = z) := by
  obtain ⟨n, h⟩ := h
  refine ⟨n + 1, ?_⟩
  rintro x _ hx rfl
  obtain ⟨ys, y0, rfl, hys⟩ := hz
  obtain ⟨M, hM, rM, cM⟩ := blocks h (xs := [x]) (by simpa using hx) hys (by simp) y0
  obtain ⟨xs, rfl, _⟩ := hx
  exact ⟨M, hM, by simpa [numElementsL] using rM, cM⟩

theorem TotK.tup_tup {k : KExpr} (h : TotK lm lk k (FddOf G ps) (FddOf G qs)) (hz : TupOf G ps z) (hz' : TupOf G qs z') :
    TotK lm lk k (· = z) (· = z') := by
  obtain ⟨n, h⟩ := h
  refine ⟨n + 1, ?_⟩
  rintro _ _ rfl rfl
  obtain ⟨xs, x0, rfl, hxs⟩ := hz
  obtain ⟨ys, y0, rfl, hys⟩ := hz'
  obtain ⟨M, hM, rM, cM⟩ := blocks h hxs hys x0 y0
  exact ⟨M, hM, rM, cM⟩

theorem TotM.mom_tup {m : MId} {rs : List PId} (h : TotM lm lk (.mom m rs) (FddOf G ps))
    (hz : TupOf G ps z) : TotM lm lk (.mom m rs) (· = z) := by
  obtain ⟨n, h⟩ := h
  refine ⟨n + 1, ?_⟩
  rintro _ rfl
  obtain ⟨xs, x0, rfl, hxs⟩ := hz
  choose! g hg using fun x (hx : FddOf G ps x) => h x hx
  refine ⟨(xs.map g).flatten, ?_, ?_⟩
  · show (if xs = [] then none else _) = _
    rw [if_neg x0, mapM_of fun x hx => (hg x (hxs x hx)).1]
    rfl
  · rw [List.length_flatten, List.map_map]
    show _ = numElementsL xs
    rw [numElementsL_eq]
    congr 1
    exact List.map_congr_left fun x hx => (hg x (hxs x hx)).2

/-- Variances of a cross process. -/
theorem TotD.mok_tup {m : MId} (h : ∀ p ∈ ps, (∃ r, G p r) → ∃ k, lk m p p = some k ∧ TotD lm lk k (NumIn (G p)) (NumIn (G p)))
    (rs : List PId) (hz : TupOf G ps z) : TotD lm lk (.mok m rs) (· = z) (· = z) := by
  obtain ⟨n, h⟩ : ∃ n, ∀ n', n ≤ n' → ∀ p ∈ ps, ∀ xs, Rows (G p) xs → ∃ k u, lk m p p = some k ∧
      (ev lm lk n').D k (.num xs) (.num xs) = some u ∧ u.length = xs.length := by
    refine common_bound ps fun p hp => ?_
    by_cases hl : ∃ r, G p r
    · obtain ⟨k, hk, tk⟩ := h p hp hl
      obtain ⟨n, tk⟩ := tk.le
      refine ⟨n, fun n' hn xs hx => ?_⟩
      obtain ⟨u, hu⟩ := tk n' hn (.num xs) (.num xs) ⟨_, rfl, hx⟩ ⟨_, rfl, hx⟩ rfl
      exact ⟨k, u, hk, hu⟩
    · exact ⟨0, fun n' _ xs hx => (hl hx.1).elim⟩
  refine ⟨n + 2, ?_⟩
  rintro _ _ rfl rfl -
  obtain ⟨xs, x0, rfl, hxs⟩ := hz
  have hrun : ∀ x ∈ xs, ∃ u, (ev lm lk (n + 1)).D (.mok m rs) x x = some u ∧ u.length = numElements x := by
    intro x hx
    obtain ⟨p, hp, ys, rfl, hy⟩ := hxs x hx
    obtain ⟨k, u, hk, hu, lu⟩ := h n le_rfl p hp ys hy
    refine ⟨u, ?_, lu⟩
    rw [ev_D_atom (x := .fdd p (.num ys)) (y := .fdd p (.num ys)) trivial trivial, stepDAtom, hk]
    exact hu
  choose! g hg using hrun
  refine ⟨(xs.map g).flatten, ?_, ?_⟩
  · show (if xs.length = xs.length ∧ xs ≠ [] then _ else _) = _
    rw [if_pos ⟨rfl, x0⟩, mapM_of (g := fun xy : Input × Input => g xy.1)]
    · show some ((xs.zip xs).map fun xy : Input × Input => g xy.1).flatten = _
      rw [show ((xs.zip xs).map fun xy : Input × Input => g xy.1) = ((xs.zip xs).map Prod.fst).map g by rw [List.map_map]; rfl,
        List.map_fst_zip (le_refl _)]
    · rintro ⟨a, b⟩ hab
      have e : a = b := by
        obtain ⟨i, hi⟩ := List.mem_iff_getElem?.1 hab
        rw [List.getElem?_zip_eq_some] at hi
        exact Option.some.inj (hi.1.symm.trans hi.2)
      subst e
      exact (hg a (List.of_mem_zip hab).1).1
  · rw [List.length_flatten, List.map_map]
    show _ = numElementsL xs
    rw [numElementsL_eq]
    congr 1
    exact List.map_congr_left fun x hx => (hg x hx).2

end

end

end Stheno
