import Verif.Props.Redata
import Verif.Props.Product

/-!
# Other data, for products

C56: Posterior covariances of products do depend on the values that are observed.
-/

namespace Stheno

/-- A process that is observed to be `a` at zero. -/
noncomputable def look (a : ℝ) : List Op :=
  [.gp .zero (.prim fun _ _ => 1) none none] ++ [.condition 0 (.exact 0 (.num [[0]]) ⟨1, 1, fun _ _ => 1⟩ [a])]

/-- The same, followed by the square of the process. -/
noncomputable def lookSquare (a : ℝ) : List Op := look a ++ .mul 0 0 [0, 1] :: []

theorem look_gives (a : ℝ) :
    Gives (look a) ((look a).take 1) 0 (.exact 0 (.num [[0]]) ⟨1, 1, fun _ _ => 1⟩ [a]) 1 := ⟨⟨_, rfl⟩, (by decide : 0 < 1), rfl⟩

theorem look_obsMat (a : ℝ) : ObsMat (runOps (look a) {}) 0 0 (.num [[0]]) ⟨1, 1, fun _ _ => 1⟩ ⟨1, 1, fun _ _ => 1 + 1⟩ :=
  ⟨⟨1, 1, fun _ _ => 1⟩, ⟨_, 10, rfl, rfl⟩, rfl, rfl⟩

theorem two_sq : ((⟨1, 1, fun _ _ => 1 + 1⟩ : Mat).sq 1)⁻¹ = (1 / 2 : ℝ) • 1 := by
  rw [single_sq]
  refine Matrix.inv_eq_right_inv ?_
  rw [smul_mul_smul_comm, mul_one]
  norm_num

theorem two_posDef : ((⟨1, 1, fun _ _ => 1 + 1⟩ : Mat).sq 1).PosDef := by
  rw [single_sq]
  exact smul_one_posDef (by norm_num)

theorem look_mean (a : ℝ) : MeanCall (runOps (look a) {}) 1 0 (.num [[0]]) [a / 2] := by
  have h := (look_gives a).mean_call_of (i := 0) (x := .num [[0]]) (v := [0]) (u := [0]) (B := ⟨1, 1, fun _ _ => 1⟩) (by decide)
    (attached_iff.2 rfl) trivial ⟨_, 10, rfl, rfl⟩ (look_obsMat a) two_posDef ⟨_, 10, rfl, rfl⟩ ⟨_, 10, rfl, rfl⟩ rfl rfl rfl rfl
  dsimp only at h
  rw [two_sq] at h
  simpa [div_eq_inv_mul, Matrix.smul_mulVec] using h

theorem look_kernel (a : ℝ) : ∃ A, KernelCall (runOps (look a) {}) 1 0 0 (.num [[0]]) (.num [[0]]) A ∧ A.r = 1 ∧ A.c = 1 ∧ A.e 0 0 = 1 / 2 := by
  have h := (look_gives a).kernel_call_of (i := 0) (j := 0) (x := .num [[0]]) (x' := .num [[0]]) (A := ⟨1, 1, fun _ _ => 1⟩)
    (B := ⟨1, 1, fun _ _ => 1⟩) (C := ⟨1, 1, fun _ _ => 1⟩) (by decide)
    (attached_iff.2 rfl) (attached_iff.2 rfl) trivial trivial ⟨_, 10, rfl, rfl⟩ (look_obsMat a) two_posDef
    ⟨_, 10, rfl, rfl⟩ ⟨_, 10, rfl, rfl⟩ rfl rfl rfl rfl
  refine ⟨_, h, rfl, rfl, ?_⟩
  dsimp only
  rw [two_sq]
  norm_num

theorem lookSquare_elem (a : ℝ) : ∀ o ∈ lookSquare a, o.Elem := by
  intro o ho
  rcases List.mem_append.1 ho with h | h
  · exact (looks_regular a 0).elem o (List.mem_append.2 (.inl h))
  · obtain rfl := List.mem_singleton.1 h
    trivial

theorem lookSquare_attached (a : ℝ) : Attached (runOps (look a ++ [.mul 0 0 [0, 1]]) {}) 1 1 := by
  have e := renoise_attached (φ := .zeros) (m := 1) (p := 1) fun o ho => (lookSquare_elem a o ho).natural
  refine e.1 (?_ : Attached (runOps (lookSquare 0) {}) 1 1)
  exact attached_iff.2 (by decide +kernel)

/-- The covariance of the square with the process is `a / 2`, if the process is observed to be `a`. -/
theorem lookSquare_cross (a : ℝ) : ∃ A, KernelCall (runOps (lookSquare a) {}) 1 1 0 (.num [[0]]) (.num [[0]]) A ∧ A.e 0 0 = a / 2 := by
  obtain ⟨b, n, hb, hv⟩ := C05_mean_call (later := [.mul 0 0 [0, 1]]) (look_mean a)
  obtain ⟨A, hA, hr, hc, e⟩ := look_kernel a
  obtain ⟨k, n', hk, hA⟩ := C05_kernel_call (later := [.mul 0 0 [0, 1]]) hA
  have tm : TableM (runOps (lookSquare a) {}) 1 (· = .num [[0]]) 0 fun _ _ => a / 2 :=
    ⟨b, hb, by
      rintro _ rfl
      refine ⟨_, ⟨n, hv⟩, rfl, fun i hi => ?_⟩
      obtain rfl : i = 0 := Nat.lt_one_iff.1 hi
      rfl⟩
  have tk : TableK (runOps (lookSquare a) {}) 1 (· = .num [[0]]) (· = .num [[0]]) 0 0 fun _ _ _ _ => 1 / 2 :=
    ⟨k, hk, by
      rintro _ _ rfl rfl
      refine ⟨A, ⟨n', hA⟩, hr, hc, fun i hi j hj => ?_⟩
      obtain rfl : i = 0 := Nat.lt_one_iff.1 hi
      obtain rfl : j = 0 := Nat.lt_one_iff.1 hj
      exact e⟩
  obtain ⟨⟨k, hk, hB⟩, -⟩ := product_cross (T := (· = .num [[0]])) (U := (· = .num [[0]])) (r := 1) (fun _ e => e ▸ trivial) (fun _ e => e ▸ trivial)
    (rfl : lookSquare a = look a ++ .mul 0 0 [0, 1] :: []) rfl (lookSquare_attached a) (attached_iff.2 rfl) tm tm tk tk
  obtain ⟨B, ⟨n, hB⟩, -, -, e⟩ := hB _ _ rfl rfl
  refine ⟨B, ⟨k, n, hk, hB⟩, ?_⟩
  rw [e 0 (by decide) 0 (by decide)]
  ring

theorem lookSquare_alike (a b : ℝ) : List.Forall₂ Alike (lookSquare a) (lookSquare b) :=
  .cons (.same _) (.cons (.condition 0 (.exact 0 _ _ [a] [b])) (.cons (.same _) .nil))

/-- **C56, products.** Without the assumption that processes are not multiplied with each other, `C56_kernel` does not hold: moment matching
reads means, which depend on the values that are observed. For any two different values there are programs which are the same up to these
values, and a kernel that returns differently. -/
theorem C56_products_differ {a b : ℝ} (hab : a ≠ b) : ∃ (ops ops' : List Op), List.Forall₂ Alike ops ops' ∧ (∀ o ∈ ops, o.Elem) ∧
    Op.condition 0 (.exact 0 (.num [[0]]) ⟨1, 1, fun _ _ => 1⟩ [a]) ∈ ops ∧ Op.condition 0 (.exact 0 (.num [[0]]) ⟨1, 1, fun _ _ => 1⟩ [b]) ∈ ops' ∧
    ∃ m p q x y A A', KernelCall (runOps ops {}) m p q x y A ∧ KernelCall (runOps ops' {}) m p q x y A' ∧ A.e 0 0 ≠ A'.e 0 0 := by
  obtain ⟨A, hA, e⟩ := lookSquare_cross a
  obtain ⟨A', hA', e'⟩ := lookSquare_cross b
  refine ⟨lookSquare a, lookSquare b, lookSquare_alike a b, lookSquare_elem a, by simp [lookSquare, look], by simp [lookSquare, look],
    1, 1, 0, _, _, A, A', hA, hA', ?_⟩
  rw [e, e']
  intro h
  exact hab (by linarith)

/-- C56: observing 0 and observing 2 give different kernels for the square. -/
example : ∃ A A', KernelCall (runOps (lookSquare 0) {}) 1 1 0 (.num [[0]]) (.num [[0]]) A ∧
    KernelCall (runOps (lookSquare 2) {}) 1 1 0 (.num [[0]]) (.num [[0]]) A' ∧ A.e 0 0 = 0 ∧ A'.e 0 0 = 1 := by
  obtain ⟨A, hA, e⟩ := lookSquare_cross 0
  obtain ⟨A', hA', e'⟩ := lookSquare_cross 2
  exact ⟨A, A', hA, hA', by simpa using e, by simpa using e'⟩

end Stheno
