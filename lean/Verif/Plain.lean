import Verif.SoundMo

/-!
# Means and kernels that do not refer to a measure

Evaluation of the means and kernels users give to new GPs: functions, numbers, kernels, and sums, products and
multiples of them.
-/

namespace Stheno

open Mat

/-- A function that does not refer to a measure. -/
def Fn.Plain : Fn → Prop
  | .meanOf _ _ => False
  | _ => True

/-- The value at a row. -/
def Fn.val : Fn → Pt → ℝ
  | .user f => f
  | .const c => fun _ => c
  | .meanOf _ _ => fun _ => 0

/-- A mean that does not refer to a measure. -/
def MExpr.Plain : MExpr → Prop
  | .zero => True
  | .fn f => f.Plain
  | .add a b | .mul a b => a.Plain ∧ b.Plain
  | .scale _ a => a.Plain
  | _ => False

/-- The value at a row. -/
noncomputable def MExpr.val : MExpr → Pt → ℝ
  | .fn f => f.val
  | .add a b => fun x => a.val x + b.val x
  | .mul a b => fun x => a.val x * b.val x
  | .scale c a => fun x => c * a.val x
  | _ => fun _ => 0

/-- A kernel that does not refer to a measure. -/
def KExpr.Plain : KExpr → Prop
  | .prim _ | .zero => True
  | .add a b | .mul a b => a.Plain ∧ b.Plain
  | .scale _ a => a.Plain
  | .tprod f g => f.Plain ∧ g.Plain
  | _ => False

/-- The value at two rows. -/
noncomputable def KExpr.val : KExpr → Pt → Pt → ℝ
  | .prim k => k
  | .add a b => fun x y => a.val x y + b.val x y
  | .mul a b => fun x y => a.val x y * b.val x y
  | .scale c a => fun x y => c * a.val x y
  | .tprod f g => fun x y => f.val x * g.val y
  | _ => fun _ _ => 0

section
variable {lm : MId → PId → Option MExpr} {lk : MId → PId → PId → Option KExpr}

theorem plainFn_num {r : Ev} {f : Fn} (hf : f.Plain) {xs : List Pt} {u : List ℝ}
    (h : stepFn lm r f (.num xs) = some u) : u = xs.map f.val := by
  cases f with
  | user f => simp only [stepFn, Option.some.injEq] at h; exact h.symm
  | const c =>
    simp only [stepFn, Option.some.injEq] at h
    rw [← h]
    show List.replicate xs.length c = xs.map fun _ => c
    rw [List.map_const']
  | meanOf => exact hf.elim

theorem zipWith_map_same {α : Type} (g : ℝ → ℝ → ℝ) (f f' : α → ℝ) (xs : List α) :
    List.zipWith g (xs.map f) (xs.map f') = xs.map fun x => g (f x) (f' x) := by
  induction xs with
  | nil => rfl
  | cons x xs ih => simp only [List.map_cons, List.zipWith_cons_cons, ih]

/-- A plain mean is evaluated row by row. -/
theorem plainM_num {a : MExpr} (ha : a.Plain) {n : ℕ} {xs : List Pt} {u : List ℝ}
    (h : (ev lm lk n).M a (.num xs) = some u) : u = xs.map a.val := by
  induction a generalizing n u with
  | zero =>
    cases n with
    | zero => cases h
    | succ n =>
      have h : some (List.replicate xs.length (0 : ℝ)) = some u := h
      cases h
      show _ = xs.map fun _ => (0 : ℝ)
      rw [List.map_const']
  | fn f =>
    cases n with
    | zero => cases h
    | succ n => exact plainFn_num ha h
  | add a b iha ihb =>
    cases n with
    | zero => cases h
    | succ n =>
      obtain ⟨u1, h1, h⟩ := bind_some h
      obtain ⟨u2, h2, h⟩ := bind_some h
      obtain ⟨_, rfl⟩ := zipCol_some h
      rw [iha ha.1 h1, ihb ha.2 h2, zipWith_map_same]; rfl
  | mul a b iha ihb =>
    cases n with
    | zero => cases h
    | succ n =>
      obtain ⟨u1, h1, h⟩ := bind_some h
      obtain ⟨u2, h2, h⟩ := bind_some h
      obtain ⟨_, rfl⟩ := zipCol_some h
      rw [iha ha.1 h1, ihb ha.2 h2, zipWith_map_same]; rfl
  | scale c a iha =>
    cases n with
    | zero => cases h
    | succ n =>
      obtain ⟨u1, h1, rfl⟩ := Option.map_eq_some_iff.1 h
      rw [iha ha h1, List.map_map]; rfl
  | _ => exact ha.elim

/-- At other inputs, a plain mean is constant if it can be evaluated. -/
theorem plainM_other {a : MExpr} (ha : a.Plain) {n : ℕ} {x : Input} (hx : ∀ xs, x ≠ .num xs) {u : List ℝ}
    (h : (ev lm lk n).M a x = some u) : ∃ c, a.val = (fun _ => c) ∧ u = List.replicate (numElements x) c := by
  induction a generalizing n u with
  | zero =>
    cases n with
    | zero => cases h
    | succ n =>
      have h : some (List.replicate (numElements x) (0 : ℝ)) = some u := h
      cases h
      exact ⟨0, rfl, rfl⟩
  | fn f =>
    cases n with
    | zero => cases h
    | succ n =>
      cases f with
      | user f =>
        cases x with
        | num xs => exact (hx xs rfl).elim
        | fdd => cases h
        | tup => cases h
      | const c =>
        have h : some (List.replicate (numElements x) c) = some u := by
          have h' : stepFn lm (ev lm lk n) (.const c) x = some u := h
          rwa [stepFn] at h'
        cases h
        exact ⟨c, rfl, rfl⟩
      | meanOf => exact ha.elim
  | add a b iha ihb =>
    cases n with
    | zero => cases h
    | succ n =>
      obtain ⟨u1, h1, h⟩ := bind_some h
      obtain ⟨u2, h2, h⟩ := bind_some h
      obtain ⟨_, rfl⟩ := zipCol_some h
      obtain ⟨c, hc, rfl⟩ := iha ha.1 h1
      obtain ⟨d, hd, rfl⟩ := ihb ha.2 h2
      refine ⟨c + d, ?_, by simp⟩
      funext x
      show a.val x + b.val x = _
      rw [hc, hd]
  | mul a b iha ihb =>
    cases n with
    | zero => cases h
    | succ n =>
      obtain ⟨u1, h1, h⟩ := bind_some h
      obtain ⟨u2, h2, h⟩ := bind_some h
      obtain ⟨_, rfl⟩ := zipCol_some h
      obtain ⟨c, hc, rfl⟩ := iha ha.1 h1
      obtain ⟨d, hd, rfl⟩ := ihb ha.2 h2
      refine ⟨c * d, ?_, by simp⟩
      funext x
      show a.val x * b.val x = _
      rw [hc, hd]
  | scale c a iha =>
    cases n with
    | zero => cases h
    | succ n =>
      obtain ⟨u1, h1, rfl⟩ := Option.map_eq_some_iff.1 h
      obtain ⟨d, hd, rfl⟩ := iha ha h1
      refine ⟨c * d, ?_, by simp⟩
      funext x
      show c * a.val x = _
      rw [hd]
  | _ => exact ha.elim

/-- The matrix of values of a kernel. -/
noncomputable def KExpr.valMat (k : KExpr) (xs ys : List Pt) : Mat :=
  ⟨xs.length, ys.length, fun i j => k.val (xs.getD i []) (ys.getD j [])⟩

theorem getD_map_val {f : Pt → ℝ} {xs : List Pt} {i : ℕ} (hi : i < xs.length) :
    (xs.map f).getD i 0 = f (xs.getD i []) := by
  simp [List.getD_eq_getElem?_getD, List.getElem?_eq_getElem hi]

/-- A plain kernel is evaluated entry by entry. -/
theorem plainK_num {k : KExpr} (hk : k.Plain) {n : ℕ} {xs ys : List Pt} {A : Mat}
    (h : (ev lm lk n).K k (.num xs) (.num ys) = some A) : A.Eqv (k.valMat xs ys) := by
  induction k generalizing n A with
  | zero =>
    cases n with
    | zero => cases h
    | succ n => cases h; exact ⟨rfl, rfl, fun _ _ _ _ => rfl⟩
  | prim f =>
    cases n with
    | zero => cases h
    | succ n => cases h; exact ⟨rfl, rfl, fun _ _ _ _ => rfl⟩
  | add a b iha ihb =>
    cases n with
    | zero => cases h
    | succ n =>
      obtain ⟨u1, h1, h⟩ := bind_some h
      obtain ⟨u2, h2, h⟩ := bind_some h
      obtain ⟨_, _, rfl⟩ := Mat.add_some h
      have ea := iha hk.1 h1
      have eb := ihb hk.2 h2
      refine ⟨ea.r, ea.c, fun i hi j hj => ?_⟩
      show u1.e i j + u2.e i j = a.val _ _ + b.val _ _
      rw [ea.e i hi j hj, eb.e i hi j hj]; rfl
  | mul a b iha ihb =>
    cases n with
    | zero => cases h
    | succ n =>
      obtain ⟨u1, h1, h⟩ := bind_some h
      obtain ⟨u2, h2, h⟩ := bind_some h
      obtain ⟨_, _, rfl⟩ := Mat.mul_some h
      have ea := iha hk.1 h1
      have eb := ihb hk.2 h2
      refine ⟨ea.r, ea.c, fun i hi j hj => ?_⟩
      show u1.e i j * u2.e i j = a.val _ _ * b.val _ _
      rw [ea.e i hi j hj, eb.e i hi j hj]; rfl
  | scale c a iha =>
    cases n with
    | zero => cases h
    | succ n =>
      obtain ⟨u1, h1, rfl⟩ := Option.map_eq_some_iff.1 h
      have ea := iha hk h1
      refine ⟨ea.r, ea.c, fun i hi j hj => ?_⟩
      show c * u1.e i j = c * a.val _ _
      rw [ea.e i hi j hj]; rfl
  | tprod f g =>
    cases n with
    | zero => cases h
    | succ n =>
      obtain ⟨u1, h1, h⟩ := bind_some h
      obtain ⟨u2, h2, h⟩ := bind_some h
      cases h
      rw [plainFn_num hk.1 h1, plainFn_num hk.2 h2]
      refine ⟨by simp [KExpr.valMat], by simp [KExpr.valMat], fun i hi j hj => ?_⟩
      show (xs.map f.val).getD i 0 * (ys.map g.val).getD j 0 = _
      rw [getD_map_val hi, getD_map_val hj]; rfl
  | _ => exact hk.elim

theorem zipWith_zipWith_same {α : Type} (g : ℝ → ℝ → ℝ) (f f' : α → α → ℝ) :
    (xs ys : List α) → List.zipWith g (List.zipWith f xs ys) (List.zipWith f' xs ys) =
      List.zipWith (fun x y => g (f x y) (f' x y)) xs ys
  | [], _ => by simp
  | _ :: _, [] => by simp
  | x :: xs, y :: ys => by simp only [List.zipWith_cons_cons, zipWith_zipWith_same g f f' xs ys]

/-- A plain kernel is evaluated elementwise. -/
theorem plainD_num {k : KExpr} (hk : k.Plain) {n : ℕ} {xs ys : List Pt} {u : List ℝ}
    (h : (ev lm lk n).D k (.num xs) (.num ys) = some u) :
    xs.length = ys.length ∧ u = List.zipWith k.val xs ys := by
  induction k generalizing n u with
  | zero =>
    cases n with
    | zero => cases h
    | succ n =>
      have h : (if xs.length = ys.length then some (List.replicate xs.length (0 : ℝ)) else none) = some u := h
      by_cases hl : xs.length = ys.length
      · rw [if_pos hl] at h
        cases h
        refine ⟨hl, ?_⟩
        show _ = List.zipWith (fun _ _ => (0 : ℝ)) xs ys
        refine List.ext_getElem (by simp [hl]) (by simp)
      · rw [if_neg hl] at h; cases h
  | prim f =>
    cases n with
    | zero => cases h
    | succ n =>
      simp only [ev, step, stepD, stepDAtom] at h
      split at h
      · next hl => cases h; exact ⟨hl, rfl⟩
      · cases h
  | add a b iha ihb =>
    cases n with
    | zero => cases h
    | succ n =>
      obtain ⟨u1, h1, h⟩ := bind_some h
      obtain ⟨u2, h2, h⟩ := bind_some h
      obtain ⟨_, rfl⟩ := zipCol_some h
      obtain ⟨hl, rfl⟩ := iha hk.1 h1
      obtain ⟨_, rfl⟩ := ihb hk.2 h2
      exact ⟨hl, zipWith_zipWith_same _ _ _ xs ys⟩
  | mul a b iha ihb =>
    cases n with
    | zero => cases h
    | succ n =>
      obtain ⟨u1, h1, h⟩ := bind_some h
      obtain ⟨u2, h2, h⟩ := bind_some h
      obtain ⟨_, rfl⟩ := zipCol_some h
      obtain ⟨hl, rfl⟩ := iha hk.1 h1
      obtain ⟨_, rfl⟩ := ihb hk.2 h2
      exact ⟨hl, zipWith_zipWith_same _ _ _ xs ys⟩
  | scale c a iha =>
    cases n with
    | zero => cases h
    | succ n =>
      obtain ⟨u1, h1, rfl⟩ := Option.map_eq_some_iff.1 h
      obtain ⟨hl, rfl⟩ := iha hk h1
      exact ⟨hl, by rw [List.map_zipWith]; rfl⟩
  | tprod f g =>
    cases n with
    | zero => cases h
    | succ n =>
      obtain ⟨u1, h1, h⟩ := bind_some h
      obtain ⟨u2, h2, h⟩ := bind_some h
      obtain ⟨hl, rfl⟩ := zipCol_some h
      rw [plainFn_num hk.1 h1, plainFn_num hk.2 h2] at hl ⊢
      refine ⟨by simpa using hl, ?_⟩
      rw [List.zipWith_map]; rfl
  | _ => exact hk.elim

end

end Stheno
