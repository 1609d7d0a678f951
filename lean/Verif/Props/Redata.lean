import Verif.Redata
import Verif.Props.Jitter

/-!
# Other data

C56: Posterior covariances do not depend on the values that are observed, and posterior means are affine in them.
-/

namespace Stheno

open Matrix

/-- Observations of the same things, with the same noise, at the same inputs. -/
inductive AlikeObs : Obs → Obs → Prop
  | exact (p : PId) (x : Input) (N : Mat) (y y' : List ℝ) : AlikeObs (.exact p x N y) (.exact p x N y')
  | pseudo (pu p : PId) (o : PseudoData) (y' : List ℝ) : AlikeObs (.pseudo pu p o) (.pseudo pu p { o with y := y' })

/-- Operations that are the same, up to the values that are observed. -/
inductive Alike : Op → Op → Prop
  | same (o : Op) : Alike o o
  | condition (m : MId) {o o' : Obs} (h : AlikeObs o o') : Alike (.condition m o) (.condition m o')

section
variable {G : Dom} {θ : ℝ} {ops ops' l₁ l₂ l₃ : List Op} {m : MId} {p q : PId} {x y : Input} {xs : List Pt}

theorem alike_blank (h : List.Forall₂ Alike ops ops') : renoise ⟨id, fun _ => []⟩ ops = renoise ⟨id, fun _ => []⟩ ops' := by
  induction h with
  | nil => rfl
  | cons h _ ih =>
    refine congrArg₂ List.cons ?_ ih
    cases h with
    | same => rfl
    | condition m h => cases h <;> rfl

theorem alike_elem (h : List.Forall₂ Alike ops ops') (he : ∀ o ∈ ops, o.Elem) : ∀ o ∈ ops', o.Elem := by
  refine elem_of_renoise (φ := ⟨id, fun _ => []⟩) ?_
  rw [← alike_blank h]
  intro o ho
  obtain ⟨o', ho', rfl⟩ := List.mem_map.1 ho
  exact (he o' ho').renoise

theorem alike_unmultiplied (h : List.Forall₂ Alike ops ops') (hu : Unmultiplied ops) : Unmultiplied ops' := by
  refine (unmultiplied_renoise (φ := ⟨id, fun _ => []⟩)).1 ?_
  rw [← alike_blank h]
  exact unmultiplied_renoise.2 hu

/-- **C56, covariances.** In programs that are the same up to the values that are observed, and in which processes are not multiplied
with each other, kernels return the same. -/
theorem C56_kernel (h : List.Forall₂ Alike ops ops') (he : ∀ o ∈ ops, o.Elem) (hu : Unmultiplied ops) {A : Mat} :
    KernelCall (runOps ops {}) m p q x y A ↔ KernelCall (runOps ops' {}) m p q x y A := by
  rw [← kernelCall_values (φ := ⟨id, fun _ => []⟩) he hu fun _ => rfl, alike_blank h,
    kernelCall_values (alike_elem h he) (alike_unmultiplied h hu) fun _ => rfl]

/-- **C56, variances.** The same for elementwise calls. -/
theorem C56_elwise (h : List.Forall₂ Alike ops ops') (he : ∀ o ∈ ops, o.Elem) (hu : Unmultiplied ops) {u : List ℝ} :
    ElwiseCall (runOps ops {}) m p q x y u ↔ ElwiseCall (runOps ops' {}) m p q x y u := by
  rw [← elwiseCall_values (φ := ⟨id, fun _ => []⟩) he hu fun _ => rfl, alike_blank h,
    elwiseCall_values (alike_elem h he) (alike_unmultiplied h hu) fun _ => rfl]

/-- **C56, assumptions.** Whether programs are regular does not depend on the values that are observed, if there are as many. -/
theorem C56_regular (h : Mixed θ l₁ l₂ l₃) (hu : Unmultiplied l₁) : (Regular G l₁ ↔ Regular G l₂) ∧ (Regular G l₁ ↔ Regular G l₃) := by
  obtain ⟨z₂, z₃⟩ := h.zeros
  have hu₁ : Unmultiplied (renoise .zeros l₁) := unmultiplied_renoise.2 hu
  have e := fun {l : List Op} (hu : Unmultiplied l) => regular_values (G := G) Change.zeros_keeps Change.zeros_values hu
  exact ⟨by rw [← e hu, z₂, e (unmultiplied_renoise.1 (z₂ ▸ hu₁))], by rw [← e hu, z₃, e (unmultiplied_renoise.1 (z₃ ▸ hu₁))]⟩

theorem mixed_attached (h : Mixed θ l₁ l₂ l₃) (he : ∀ o ∈ l₁, o.Elem) :
    (Attached (runOps l₁ {}) m p ↔ Attached (runOps l₂ {}) m p) ∧ (Attached (runOps l₁ {}) m p ↔ Attached (runOps l₃ {}) m p) := by
  obtain ⟨z₂, z₃⟩ := h.zeros
  have he₁ : ∀ o ∈ renoise .zeros l₁, o.Elem := fun o ho => by
    obtain ⟨o', ho', rfl⟩ := List.mem_map.1 ho
    exact (he o' ho').renoise
  have hn : ∀ {l : List Op}, renoise .zeros l₁ = renoise .zeros l → ∀ o ∈ l, o.Natural := fun z o ho =>
    (elem_of_renoise (z ▸ he₁) o ho).natural
  have e := fun {l : List Op} (z : renoise .zeros l₁ = renoise .zeros l) => renoise_attached (φ := .zeros) (m := m) (p := p) (hn z)
  exact ⟨by rw [← e rfl, z₂, e z₂], by rw [← e rfl, z₃, e z₃]⟩

/-- **C56, means.** Means are affine in the values that are observed: observing `θ y₁ + (1 - θ) y₂` everywhere gives `θ` times the
mean for `y₁` plus `1 - θ` times the mean for `y₂`. -/
theorem C56_mean (h : Mixed θ l₁ l₂ l₃) (hr : Regular G l₁) (hu : Unmultiplied l₁) (hp : Attached (runOps l₁ {}) m p) (hx : Rows (G p) xs)
    {v₁ v₂ : List ℝ} (h₁ : MeanCall (runOps l₁ {}) m p (.num xs) v₁) (h₂ : MeanCall (runOps l₂ {}) m p (.num xs) v₂) :
    MeanCall (runOps l₃ {}) m p (.num xs) (List.zipWith (fun a b => θ * a + (1 - θ) * b) v₁ v₂) := by
  have hr₂ := (C56_regular h hu).1.1 hr
  have hr₃ := (C56_regular h hu).2.1 hr
  have hp₂ := (mixed_attached h hr.elem).1.1 hp
  have hp₃ := (mixed_attached h hr.elem).2.1 hp
  obtain ⟨⟨F₂, F₃⟩, hm⟩ := reading_mix h hr.elem hu m
  obtain ⟨v₃, h₃, -⟩ := hr₃.mean hp₃ hx
  obtain ⟨vs, hF, -⟩ := hr.value hp hx
  have e₁ := hr.mean_eq hp hx h₁ hF
  have e₂ := hr₂.mean_eq hp₂ hx h₂ (by rw [F₂]; exact hF)
  have e₃ := hr₃.mean_eq hp₃ hx h₃ (by rw [F₃]; exact hF)
  have e : List.zipWith (fun a b => θ * a + (1 - θ) * b) v₁ v₂ = v₃ := by
    rw [e₁, e₂, e₃, List.zipWith_map, List.zipWith_self]
    exact List.map_congr_left fun u _ => (hm.E u).symm
  rw [e]
  exact h₃

/-- **C56, no surprise.** Observing what is expected does not change means: if the values that are observed are the mean, then
means in the posterior are means in the prior. For all programs. -/
theorem C56_expected {before : List Op} {m' : MId} {z : Input} {N : Mat} {ys : List ℝ} (g : Gives ops before m (.exact p z N ys) m') (hz : numElements z ≠ 0)
    (hq : Attached (runOps before {}) m q) (hx : x.IsAtom) (hy : MeanCall (runOps ops {}) m p z ys) {v : List ℝ}
    (hv : MeanCall (runOps ops {}) m' q x v) : MeanCall (runOps ops {}) m q x v := by
  obtain ⟨v₀, K, u, B, h0, -, -, hu, -, -, -, -, hl, rfl⟩ := g.mean_call hz hq hx hv
  rw [hu.unique hy]
  have e : List.zipWith (· + ·) v₀ ((List.range B.c).map fun s => ∑ a : Fin K.r, B.e a s *
      ((K.sq K.r)⁻¹ *ᵥ fun a : Fin K.r => ys.getD a 0 - ys.getD a 0) a) = v₀ := by
    have : (fun a : Fin K.r => ys.getD a 0 - ys.getD a 0) = 0 := funext fun _ => sub_self _
    rw [this]
    exact List.ext_getElem (by simp [hl]) fun i _ _ => by simp
  rw [e]
  exact h0

end

/-- A process that is observed to be `a`, and then to be `b`. -/
noncomputable def looks (a b : ℝ) : List Op :=
  [.gp .zero (.prim fun _ _ => 1) none none] ++ [.condition 0 (.exact 0 (.num [[0]]) ⟨1, 1, fun _ _ => 1⟩ [a])] ++
    [.condition 1 (.exact 0 (.num [[1]]) ⟨1, 1, fun _ _ => 2⟩ [b])]

theorem looks_regular (a b : ℝ) : Regular (fun _ _ => True) (looks a b) :=
  (C46_condition (m := 1) (p := 0) (C46_condition (m := 0) (p := 0) flat_solid (attached_iff.2 rfl) (.one trivial) rfl rfl rfl
    (by
      show ((⟨1, 1, fun _ _ => 1⟩ : Mat).sq 1).PosDef
      rw [single_sq]
      exact smul_one_posDef (by norm_num)))
    (attached_iff.2 rfl) (.one trivial) rfl rfl rfl
    (by
      show ((⟨1, 1, fun _ _ => 2⟩ : Mat).sq 1).PosDef
      rw [single_sq]
      exact smul_one_posDef (by norm_num))).regular

theorem looks_unmultiplied (a b : ℝ) : Unmultiplied (looks a b) := by
  intro p q ord h
  simp [looks] at h

theorem looks_mixed (θ a b c d : ℝ) : Mixed θ (looks a b) (looks c d) (looks (θ * a + (1 - θ) * c) (θ * b + (1 - θ) * d)) :=
  .cons (.same _) (.cons (.condition 0 (.exact 0 _ _ [a] [c] rfl)) (.cons (.condition 1 (.exact 0 _ _ [b] [d] rfl)) .nil))

theorem looks_alike (a b c d : ℝ) : List.Forall₂ Alike (looks a b) (looks c d) :=
  .cons (.same _) (.cons (.condition 0 (.exact 0 _ _ [a] [c])) (.cons (.condition 1 (.exact 0 _ _ [b] [d])) .nil))

/-- C56: whatever is observed, the posterior kernel is the same. -/
example (a b : ℝ) : ∃ A, A.r = 2 ∧ ∀ c d, KernelCall (runOps (looks c d) {}) 2 0 0 (.num [[1], [2]]) (.num [[1]]) A := by
  have hp : Attached (runOps (looks a b) {}) 2 0 := attached_iff.2 rfl
  obtain ⟨A, hA, hr, -⟩ := (looks_regular a b).kernel hp hp (xs := [[1], [2]]) (ys := [[1]]) (by simp [Rows]) (.one trivial)
  exact ⟨A, hr, fun c d => (C56_kernel (looks_alike a b c d) (looks_regular a b).elem (looks_unmultiplied a b)).1 hA⟩

/-- C56: the mean for averaged data is the average of the means. -/
example (a b c d : ℝ) : ∃ v₁ v₂, MeanCall (runOps (looks a b) {}) 2 0 (.num [[1], [2]]) v₁ ∧ MeanCall (runOps (looks c d) {}) 2 0 (.num [[1], [2]]) v₂ ∧
    MeanCall (runOps (looks (1 / 2 * a + (1 - 1 / 2) * c) (1 / 2 * b + (1 - 1 / 2) * d)) {}) 2 0 (.num [[1], [2]])
      (List.zipWith (fun a b => 1 / 2 * a + (1 - 1 / 2) * b) v₁ v₂) := by
  have hp : Attached (runOps (looks a b) {}) 2 0 := attached_iff.2 rfl
  obtain ⟨v₁, h₁, -⟩ := (looks_regular a b).mean hp (xs := [[1], [2]]) (by simp [Rows])
  obtain ⟨v₂, h₂, -⟩ := (looks_regular c d).mean (attached_iff.2 rfl) (m := 2) (p := 0) (xs := [[1], [2]]) (by simp [Rows])
  exact ⟨v₁, v₂, h₁, h₂, C56_mean (looks_mixed _ a b c d) (looks_regular a b) (looks_unmultiplied a b) hp (by simp [Rows]) h₁ h₂⟩

/-- C56: observing that a process with mean zero is zero does not change its mean. -/
example (b : ℝ) {v : List ℝ} (hv : MeanCall (runOps (looks 0 b) {}) 1 0 (.num [[1], [2]]) v) :
    MeanCall (runOps (looks 0 b) {}) 0 0 (.num [[1], [2]]) v :=
  C56_expected (x := .num [[1], [2]]) (q := 0) (before := (looks 0 b).take 1) (p := 0) (z := .num [[0]]) (N := ⟨1, 1, fun _ _ => 1⟩) (ys := [0])
    ⟨⟨_, rfl⟩, (by decide : 0 < 1), rfl⟩ (by decide) (attached_iff.2 rfl) trivial ⟨_, 10, rfl, rfl⟩ hv

end Stheno
