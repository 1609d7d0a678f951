import Verif.Regular

/-!
# Single-output random functions

A way to write down readings of small programs by hand: a random function given point by point. The examples next to
theorems about all readings use it.
-/

namespace Stheno

open Matrix

set_option linter.unusedSectionVars false

variable {V : Type} [AddCommGroup V] [Module ℝ V]

mutual
/-- The random function with value `g x` at the row `x`, if that is defined. -/
def pointRF (g : Pt → Option V) : RF V
  | .num xs => xs.mapM g
  | .fdd _ _ => none
  | .tup xs => pointRFL g xs
/-- The values at the elements of a tuple, concatenated. -/
def pointRFL (g : Pt → Option V) : List Input → Option (List V)
  | [] => some []
  | x :: xs => do pure ((← pointRF g x) ++ (← pointRFL g xs))
end

theorem pointRFL_eq (g : Pt → Option V) (xs : List Input) : pointRFL g xs = (xs.mapM (pointRF g)).map List.flatten := by
  induction xs with
  | nil => rfl
  | cons x xs ih =>
    rw [List.mapM_cons, pointRFL, ih]
    cases pointRF g x with
    | none => rfl
    | some v => cases xs.mapM (pointRF g) <;> rfl

/-- All values come from rows, as many as the input has elements. -/
theorem pointRF_rows {g : Pt → Option V} (x : Input) : ∀ vs, pointRF g x = some vs → ∃ ys : List Pt,
    ys.mapM g = some vs ∧ ys.length = numElements x := by
  induction x using Input.ind with
  | num xs => exact fun vs h => ⟨xs, by rw [pointRF] at h; exact h, rfl⟩
  | fdd p x => intro vs h; rw [pointRF] at h; cases h
  | tup xs ih =>
    intro vs h
    rw [pointRF] at h
    show ∃ ys, _ ∧ List.length ys = numElementsL xs
    induction xs generalizing vs with
    | nil => rw [pointRFL] at h; cases h; exact ⟨[], rfl, rfl⟩
    | cons x xs ih' =>
      rw [pointRFL] at h
      obtain ⟨v, h1, h⟩ := bind_some h
      obtain ⟨w, h2, h⟩ := bind_some h
      cases h
      obtain ⟨y1, e1, l1⟩ := ih x (by simp) v h1
      obtain ⟨y2, e2, l2⟩ := ih' (fun y hy => ih y (by simp [hy])) w h2
      refine ⟨y1 ++ y2, ?_, by rw [List.length_append, l1, l2]; rfl⟩
      rw [List.mapM_append, e1, e2]; rfl

theorem pointRF_ok (g : Pt → Option V) : (pointRF g).OK where
  tup xs := by rw [pointRF, pointRFL_eq]
  size x vs h := by
    obtain ⟨ys, e, l⟩ := pointRF_rows x vs h
    rw [← l, mapM_length e]
  pointwise xs vs h hl i x v hx hv := by
    rw [pointRF] at h ⊢
    obtain ⟨w, hw, e⟩ := mapM_get h hx
    rw [hv] at hw; cases hw
    rw [List.mapM_cons, e]; rfl

section
variable {lm : MId → PId → Option MExpr} {lk : MId → PId → PId → Option KExpr} {S : SO V} {f : Pt → V}

theorem mapM_point (f : Pt → V) (xs : List Pt) : (xs.mapM fun x => some (f x)) = some (xs.map f) := by
  induction xs with
  | nil => rfl
  | cons a l ih => rw [List.mapM_cons, ih]; rfl

/-- A plain mean is the expectation of a random function if it is at every row. -/
theorem point_mean {mean : MExpr} (hm : mean.Plain) (hE : ∀ x, S.E (f x) = mean.val x) (n : ℕ) :
    SM lm lk n mean (expect S (pointRF fun x => some (f x))) := by
  intro x u t hu ht
  obtain ⟨vs, hvs, rfl⟩ := expect_some ht
  obtain ⟨ys, e, hl⟩ := pointRF_rows x vs hvs
  rw [mapM_point] at e; cases e
  have et : (ys.map f).map S.E = ys.map mean.val := by
    rw [List.map_map]; exact List.map_congr_left fun y _ => hE y
  rw [et]
  by_cases hx : ∃ xs, x = .num xs
  · obtain ⟨xs, rfl⟩ := hx
    rw [pointRF, mapM_point] at hvs
    rw [plainM_num hm hu, ← et, ← Option.some.inj hvs, List.map_map]
    rw [List.map_congr_left fun y _ => (hE y).symm]
    exact ⟨le_rfl, fun _ => rfl⟩
  · obtain ⟨c, hc, rfl⟩ := plainM_other hm (fun xs h => hx ⟨xs, h⟩) hu
    rw [hc, List.map_const', hl]
    exact ⟨le_rfl, fun _ => rfl⟩

/-- A plain kernel is the covariance of a random function if it is at every pair of rows. -/
theorem point_kernel {k : KExpr} (hk : k.Plain) (hC : ∀ x y, S.C (f x) (f y) = k.val x y) (n : ℕ) :
    AK lm lk n k (cov S (pointRF fun x => some (f x)) (pointRF fun x => some (f x))) := by
  have gd : ∀ (xs : List Pt) (i : ℕ), i < xs.length → (xs.map f).getD i 0 = f (xs.getD i []) := by
    intro xs i hi
    simp [hi]
  refine ⟨fun hz x y Tm hx hy hT => ?_, fun x y A Tm hx hy hA hT => ?_, fun x y u Tm hx hy hA hT => ?_⟩
  · subst hz
    obtain ⟨vs, ws, hv, hw, rfl⟩ := cov_some _ hT
    obtain ⟨ys, e, _⟩ := pointRF_rows x vs hv
    rw [mapM_point] at e; cases e
    obtain ⟨zs, e, _⟩ := pointRF_rows y ws hw
    rw [mapM_point] at e; cases e
    intro i hi j hj
    have hi : i < (ys.map f).length := hi
    have hj : j < (zs.map f).length := hj
    rw [List.length_map] at hi hj
    show S.C ((ys.map f).getD i 0) ((zs.map f).getD j 0) = 0
    rw [gd ys i hi, gd zs j hj]
    exact hC _ _
  · obtain ⟨vs, ws, hv, hw, rfl⟩ := cov_some _ hT
    cases x with
    | tup => exact hx.elim
    | fdd q x => rw [pointRF] at hv; cases hv
    | num xs =>
      cases y with
      | tup => exact hy.elim
      | fdd q x => rw [pointRF] at hw; cases hw
      | num ys =>
        rw [pointRF, mapM_point] at hv hw
        cases hv; cases hw
        have ee := plainK_num hk hA
        refine ⟨by rw [ee.r]; simp [KExpr.valMat, covMat], by rw [ee.c]; simp [KExpr.valMat, covMat],
          fun _ _ i hi j hj => ?_⟩
        have hi : i < (xs.map f).length := hi
        have hj : j < (ys.map f).length := hj
        rw [List.length_map] at hi hj
        rw [ee.e i hi j hj]
        show k.val (xs.getD i []) (ys.getD j []) = S.C ((xs.map f).getD i 0) ((ys.map f).getD j 0)
        rw [gd xs i hi, gd ys j hj]
        exact (hC _ _).symm
  · obtain ⟨vs, ws, hv, hw, rfl⟩ := cov_some _ hT
    cases x with
    | tup => exact hx.elim
    | fdd q x => rw [pointRF] at hv; cases hv
    | num xs =>
      cases y with
      | tup => exact hy.elim
      | fdd q x => rw [pointRF] at hw; cases hw
      | num ys =>
        rw [pointRF, mapM_point] at hv hw
        cases hv; cases hw
        obtain ⟨hl, rfl⟩ := plainD_num hk hA
        refine ⟨by simp [covMat], by simp [covMat], fun _ _ i hi => ?_⟩
        have hi : i < (xs.map f).length := hi
        rw [List.length_map] at hi
        have hj : i < ys.length := hl ▸ hi
        rw [List.getElem?_zipWith, List.getElem?_eq_getElem hi, List.getElem?_eq_getElem hj]
        show some _ = some (S.C ((xs.map f).getD i 0) ((ys.map f).getD i 0))
        rw [gd xs i hi, gd ys i hj, hC]
        simp [hi, hj]

end

end Stheno
