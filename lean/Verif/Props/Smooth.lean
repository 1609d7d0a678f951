import Mathlib.Analysis.SpecialFunctions.Exp
import Mathlib.Analysis.SpecialFunctions.ExpDeriv
import Mathlib.Analysis.Normed.Algebra.Exponential
import Verif.SmoothCalls
import Verif.Props.Stacks

/-!
# When there are derivatives: C12, C46

Programs can be extended by `p.diff(d)` if what calls of `p` return is smooth. The example at the end is a program with a
squared-exponential kernel, in which a derivative is observed.
-/

namespace Stheno

open Matrix Filter Topology

section
variable {G : Dom} {ops before after : List Op} {m : MId} {p q r : PId} {d : ℕ} {x : Pt}

/-- **C12, C46.** The programs can be extended by `p.diff(d)`. It can be called at rows such that calls of `p` return and
are smooth on the line along which the derivative is taken, in all measures that `p` is in. -/
theorem C46_diff (h : Solid G ops) (hl : ∀ x, G (runOps ops {}).gps.length x → d < x.length ∧ ∀ t, G p (bump d t x))
    (hs : ∀ m, Attached (runOps ops {}) m p → ∀ x, G (runOps ops {}).gps.length x → SmoothCalls (runOps ops {}) m p d x) :
    Solid G (ops ++ [.diff p d]) := by
  refine C46_extend h (o := .diff p d) trivial (fun _ _ h => by cases h) (fun m e he _ => ?_) fun p' d' m e hp x hx => ?_
  · simp only [Op.written, List.mem_singleton] at he
    subst he
    exact fun x hx => ⟨fun i hi => by cases hi; exact (hl x hx).1, (hl x hx).2⟩
  · cases e
    exact (h.regular.smooth_calls h.noisy hp (hl x hx).2).1 (hs m hp x hx)

/-- **C12.** Conversely, calls of `p` are smooth where `p.diff(d)` can be called. -/
theorem C12_smooth (h : Solid G ops) (hm : Runs ops before (.diff p d) r) (hr : Attached (runOps ops {}) m r) (hx : G r x) :
    SmoothCalls (runOps ops {}) m p d x := by
  have hR := h.regular
  have hT : Lined (some d) (G r) (G p) := hR.def_total (hm.of (d := .diff p d) rfl) ⟨x, hx⟩
  have hp := hR.reads.refs hr (hm.of (d := .diff p d) rfl) p (by simp [ProcDef.refs])
  rw [hR.smooth_calls h.noisy hp (hT x hx).2]
  obtain ⟨ws, hw, lw⟩ := hR.value hr (.one hx)
  obtain ⟨w, rfl⟩ := List.length_eq_one_iff.1 lw
  rw [hR.reads.diff hr (hm.of (d := .diff p d) rfl)] at hw
  obtain ⟨x', hx', hd⟩ := mapM_source hw w (by simp)
  cases List.mem_singleton.1 hx'
  exact (slopeOf_some (RF.der_some hd).2).differentiableAt

/-- **C12.** Conditioning neither makes nor destroys smoothness. -/
theorem C12_smooth_posterior (h : Solid G ops) {obs : Obs} (e : ops = before ++ .condition m obs :: after)
    (hp : Attached (runOps before {}) m p) (hx : ∀ t, G p (bump d t x)) :
    SmoothCalls (runOps ops {}) (runOps before {}).ms.length p d x ↔ SmoothCalls (runOps ops {}) m p d x := by
  have hR := h.regular
  have hm : HasMeasure (runOps before {}) m := let ⟨_, hs, _⟩ := hp; (List.getElem?_eq_some_iff.1 hs).1
  have h1 : Attached (runOps ops {}) m p := by rw [e]; exact attached_append _ hp
  have h2 : Attached (runOps ops {}) (runOps before {}).ms.length p := by
    have := attached_append after (attached_condition (obs := obs) hp)
    rwa [List.append_assoc, List.singleton_append, ← e] at this
  rw [hR.smooth_calls h.noisy h1 hx, hR.smooth_calls h.noisy h2 hx,
    (hR.reads.post before m obs after e hm).1 p (mem_members.2 hp)]

/-- **C12.** A new GP is smooth, in all measures it is in, if its mean and kernel are smooth. -/
theorem C12_smooth_gp {mean : MExpr} {k : KExpr} {om : Option MId} {on : Option String} (h : Solid G ops)
    (hm : Runs ops before (.gp mean k om on) r) (hr : Attached (runOps ops {}) m r) (hx : ∀ t, G r (bump d t x))
    (h1 : DifferentiableAt ℝ (fun t => mean.val (bump d t x)) 0)
    (h2 : ∃ L, Tendsto (mixed fun s t => k.val (bump d s x) (bump d t x)) (𝓝[≠] 0 ×ˢ 𝓝[≠] 0) (𝓝 L)) :
    SmoothCalls (runOps ops {}) m r d x := by
  have hR := h.regular
  rw [hR.smooth_calls h.noisy hr hx]
  obtain ⟨a, ha, hra⟩ := (Inv.reach ops).attached.1 hr
  obtain ⟨m0, a0, es, d0, es', l1, l2, ha0, hdd, hFr, _⟩ := hR.reads.source m a ha r hra
  have hM := hm.of (d := .indep mean k) rfl
  cases hM.defs_eq ha0 hdd
  obtain ⟨after, e⟩ := hm.split
  have hel : (Op.gp mean k om on).Elem := h.tame.elem _ (by rw [e]; simp)
  have hF := (canon_indep (elem_reach h.tame.elem) ha0 hdd).1
  have e : (fun t => pointOf ((reading ops).F m r) (bump d t x)) = fun t => rv m0 r mean.val k.val (bump d t x) := by
    funext t
    have := hF [bump d t x]
    rw [show (reading ops).F m r = (reading ops).F m0 r from hFr]
    unfold pointOf
    rw [this]; rfl
  rw [e, ← smooth_so0]
  refine ⟨?_, ?_⟩
  · simpa only [so0_rv_E] using h1
  · simpa only [so0_rv_C _ _ _ hel.2.2] using h2

/-- The values of processes whose calls return. -/
theorem Regular.point (h : Regular G ops) (hp : Attached (runOps ops {}) m p) (hx : G p x) :
    (reading ops).F m p (.num [x]) = some [pointOf ((reading ops).F m p) x] := by
  obtain ⟨vs, hv, lv⟩ := h.value hp (.one hx)
  obtain ⟨v, rfl⟩ := List.length_eq_one_iff.1 lv
  rw [hv]; simp [pointOf, hv]

/-- **C12.** Sums of smooth processes are smooth. -/
theorem C12_smooth_sum {ord : List MId} (h : Solid G ops) (hm : Runs ops before (.add p q ord) r) (hr : Attached (runOps ops {}) m r)
    (hx : ∀ t, G r (bump d t x)) (h1 : SmoothCalls (runOps ops {}) m p d x) (h2 : SmoothCalls (runOps ops {}) m q d x) :
    SmoothCalls (runOps ops {}) m r d x := by
  have hR := h.regular
  have hM := hm.of (d := .sum p q) rfl
  obtain ⟨g1, g2⟩ := hR.def_total hM ⟨_, hx 0⟩
  have hp := hR.reads.refs hr hM p (by simp [ProcDef.refs])
  have hq := hR.reads.refs hr hM q (by simp [ProcDef.refs])
  rw [hR.smooth_calls h.noisy hp fun t => g1 _ (hx t)] at h1
  rw [hR.smooth_calls h.noisy hq fun t => g2 _ (hx t)] at h2
  rw [hR.smooth_calls h.noisy hr hx]
  refine (h1.add h2).congr_of_eventuallyEq (.of_forall fun t => ?_)
  have := hR.reads.sum hr hM (x := .num [bump d t x]) trivial
  rw [hR.point hp (g1 _ (hx t)), hR.point hq (g2 _ (hx t))] at this
  show pointOf ((reading ops).F m r) _ = _
  rw [pointOf, this]
  rfl

/-- **C12.** Multiples of smooth processes are smooth. -/
theorem C12_smooth_scale {c : ℝ} (h : Solid G ops) (hm : Runs ops before (.scale p c) r) (hr : Attached (runOps ops {}) m r)
    (hx : ∀ t, G r (bump d t x)) (h1 : SmoothCalls (runOps ops {}) m p d x) : SmoothCalls (runOps ops {}) m r d x := by
  have hR := h.regular
  have hM := hm.of (d := .scale p c) rfl
  have g1 := hR.def_total hM ⟨_, hx 0⟩
  have hp := hR.reads.refs hr hM p (by simp [ProcDef.refs])
  rw [hR.smooth_calls h.noisy hp fun t => g1 _ (hx t)] at h1
  rw [hR.smooth_calls h.noisy hr hx]
  refine (h1.const_smul c).congr_of_eventuallyEq (.of_forall fun t => ?_)
  have := hR.reads.scale hr hM (x := .num [bump d t x]) trivial
  rw [hR.point hp (g1 _ (hx t))] at this
  show pointOf ((reading ops).F m r) _ = _
  rw [pointOf, this]
  rfl

/-- **C12.** Sums and products of a smooth process and a smooth function are smooth. -/
theorem C12_smooth_fn {f : Fn} (h : Solid G ops) (hf : f.Plain) (hm : Runs ops before (.addFn p f) r ∨ Runs ops before (.fmul p f) r)
    (hr : Attached (runOps ops {}) m r) (hx : ∀ t, G r (bump d t x)) (h0 : DifferentiableAt ℝ (fun t => f.val (bump d t x)) 0)
    (h1 : SmoothCalls (runOps ops {}) m p d x) : SmoothCalls (runOps ops {}) m r d x := by
  have hR := h.regular
  have hv : ∀ t, (reading ops).fnAt f (.num [bump d t x]) 1 = some [f.val (bump d t x)] := fun t => by
    cases f <;> first | rfl | exact hf.elim
  rcases hm with hm | hm
  · have hM := hm.of (d := .addFn p f) rfl
    obtain ⟨g1, _⟩ := hR.def_total hM ⟨_, hx 0⟩
    have hp := hR.reads.refs hr hM p (by simp [ProcDef.refs])
    rw [hR.smooth_calls h.noisy hp fun t => g1 _ (hx t)] at h1
    rw [hR.smooth_calls h.noisy hr hx]
    refine (h1.add (h0.smul_const (reading ops).one)).congr_of_eventuallyEq (.of_forall fun t => ?_)
    have := hR.reads.addFn hr hM (x := .num [bump d t x]) trivial
    rw [hR.point hp (g1 _ (hx t)), Option.bind_eq_bind, Option.bind_some, List.length_singleton, hv] at this
    show pointOf ((reading ops).F m r) _ = _
    rw [pointOf, this]
    rfl
  · have hM := hm.of (d := .fmul p f) rfl
    obtain ⟨g1, _⟩ := hR.def_total hM ⟨_, hx 0⟩
    have hp := hR.reads.refs hr hM p (by simp [ProcDef.refs])
    rw [hR.smooth_calls h.noisy hp fun t => g1 _ (hx t)] at h1
    rw [hR.smooth_calls h.noisy hr hx]
    refine (h0.smul h1).congr_of_eventuallyEq (.of_forall fun t => ?_)
    have := hR.reads.fmul hr hM (x := .num [bump d t x]) trivial
    rw [hR.point hp (g1 _ (hx t)), Option.bind_eq_bind, Option.bind_some, List.length_singleton, hv] at this
    show pointOf ((reading ops).F m r) _ = _
    rw [pointOf, this]
    rfl

/-- **C12, C23.** Processes made in the same way are equally smooth. -/
theorem C12_smooth_twin (h : Solid G ops) (ht : Twin ops m p q) (hp : Attached (runOps ops {}) m p) (hq : Attached (runOps ops {}) m q)
    (hx : ∀ t, G p (bump d t x)) (hy : ∀ t, G q (bump d t x)) :
    SmoothCalls (runOps ops {}) m p d x ↔ SmoothCalls (runOps ops {}) m q d x := by
  have hR := h.regular
  rw [hR.smooth_calls h.noisy hp hx, hR.smooth_calls h.noisy hq hy]
  simp only [pointOf, hR.reads.twin ht]

end

/-- The empty program. -/
theorem Solid.nil {G : Dom} : Solid G [] := by
  refine ⟨⟨fun o ho => ?_, fun before o after e => ?_, fun before m obs after e => ?_, fun m obs ho => ?_, smooth_of fun p d ho => ?_⟩,
    fun m obs ho => ?_, .of_exact fun m pu p o ho => ?_⟩
  · simp at ho
  · simp at e
  · simp at e
  · simp at ho
  · simp at ho
  · simp at ho
  · simp at ho

/-! ## A program -/

/-- The squared-exponential kernel of the first feature. -/
noncomputable def rbf : KExpr := .prim fun x y => Real.exp (-(x.headD 0 - y.headD 0) ^ 2 / 2)

theorem rbf_psd : IsPSD rbf.val where
  symm x y := by
    show Real.exp _ = Real.exp _
    congr 2; ring
  nonneg s a := by
    have e : ∀ u v : ℝ, HasSum (fun n : ℕ => (Real.exp (-u ^ 2 / 2) * u ^ n) * (Real.exp (-v ^ 2 / 2) * v ^ n) / (n.factorial : ℝ))
        (Real.exp (-(u - v) ^ 2 / 2)) := fun u v => by
      have h := (NormedSpace.expSeries_div_hasSum_exp (u * v)).mul_left (Real.exp (-u ^ 2 / 2) * Real.exp (-v ^ 2 / 2))
      rw [← Real.exp_eq_exp_ℝ, ← Real.exp_add, ← Real.exp_add] at h
      have e1 : -u ^ 2 / 2 + -v ^ 2 / 2 + u * v = -(u - v) ^ 2 / 2 := by ring
      rw [e1] at h
      refine h.congr_fun fun n => ?_
      rw [Real.exp_add, mul_pow]
      ring
    have h : HasSum (fun n : ℕ => ∑ x ∈ s, ∑ y ∈ s, a x * a y * ((Real.exp (-x.headD 0 ^ 2 / 2) * x.headD 0 ^ n) *
        (Real.exp (-y.headD 0 ^ 2 / 2) * y.headD 0 ^ n) / (n.factorial : ℝ))) (∑ x ∈ s, ∑ y ∈ s, a x * a y * rbf.val x y) :=
      hasSum_sum fun x _ => hasSum_sum fun y _ => (e (x.headD 0) (y.headD 0)).mul_left (a x * a y)
    refine h.nonneg fun n => ?_
    have : (∑ x ∈ s, ∑ y ∈ s, a x * a y * ((Real.exp (-x.headD 0 ^ 2 / 2) * x.headD 0 ^ n) *
        (Real.exp (-y.headD 0 ^ 2 / 2) * y.headD 0 ^ n) / (n.factorial : ℝ))) =
        (∑ x ∈ s, a x * (Real.exp (-x.headD 0 ^ 2 / 2) * x.headD 0 ^ n)) ^ 2 / n.factorial := by
      rw [sq, Finset.sum_mul_sum, Finset.sum_div]
      refine Finset.sum_congr rfl fun x _ => ?_
      rw [Finset.sum_div]
      exact Finset.sum_congr rfl fun y _ => by ring
    rw [this]
    positivity

/-- A GP with a squared-exponential kernel, its derivative, its posterior given a value of the derivative, and the derivative
in the posterior. -/
noncomputable def swing : List Op :=
  [.gp .zero rbf none none] ++ [.diff 0 0] ++ [.condition 0 (.exact 1 (.num [[0]]) (eye 1) [1])] ++ [.call 1 0] ++ [.diff 2 0]

/-- There is a feature. -/
def full : Dom := fun _ x => 0 < x.length

theorem full_bump {p : PId} {d : ℕ} {t : ℝ} {x : Pt} (h : 0 < x.length) : full p (bump d t x) := by
  simpa [full, bump] using h

theorem headD_bump {t : ℝ} {x : Pt} (h : 0 < x.length) : (bump 0 t x).headD 0 = x.headD 0 + t := by
  cases x with
  | nil => simp at h
  | cons a l => simp [bump]

theorem rbf_smooth {x : Pt} (h : 0 < x.length) :
    ∃ L, Tendsto (mixed fun s t => rbf.val (bump 0 s x) (bump 0 t x)) (𝓝[≠] 0 ×ˢ 𝓝[≠] 0) (𝓝 L) := by
  refine mixed_of_contDiff ?_
  have e : (fun p : ℝ × ℝ => rbf.val (bump 0 p.1 x) (bump 0 p.2 x)) = fun p => Real.exp (-(p.1 - p.2) ^ 2 / 2) := by
    funext p
    show Real.exp (-((bump 0 p.1 x).headD 0 - (bump 0 p.2 x).headD 0) ^ 2 / 2) = _
    rw [headD_bump h, headD_bump h]
    congr 2; ring
  rw [e]
  fun_prop

theorem swing_solid : Solid full swing := by
  have s0 : Solid full [.gp .zero rbf none none] := by
    refine C46_extend (o := .gp .zero rbf none none) .nil ⟨trivial, trivial, rbf_psd⟩ (fun _ _ h => by cases h) (fun m e he _ => ?_) fun _ _ _ h => by cases h
    simp only [Op.written, List.mem_singleton] at he
    subst he
    exact ⟨trivial, trivial⟩
  have g0 : ∀ {ops : List Op} {m : MId} {x : Pt}, Solid full ops → Runs ops [] (.gp .zero rbf none none) 0 →
      Attached (runOps ops {}) m 0 → 0 < x.length → SmoothCalls (runOps ops {}) m 0 0 x := fun h hm hr hx =>
    C12_smooth_gp h hm hr (fun t => full_bump hx) (differentiableAt_const (0 : ℝ)) (rbf_smooth hx)
  have first : ∀ {l : List Op}, Runs (.gp .zero rbf none none :: l) [] (.gp .zero rbf none none) 0 :=
    ⟨⟨_, rfl⟩, rfl, 0, attached_iff.2 (by decide +kernel)⟩
  have s1 := C46_diff (p := 0) (d := 0) s0 (fun x hx => ⟨hx, fun t => full_bump hx⟩) fun m hm x hx => g0 s0 first hm hx
  have s2 := C46_condition (m := 0) (p := 1) (xs := [[0]]) (noise := eye 1) (y := [1]) s1 (attached_iff.2 (by decide +kernel))
    (.one (show 0 < 1 by omega)) rfl rfl rfl (eye_posDef _ _)
  have s3 := C46_extend (o := .call 1 0) s2 trivial (fun _ _ h => by cases h) (fun m e he _ => by
    simp only [Op.written, List.mem_singleton] at he
    subst he
    exact fun x hx => hx) fun _ _ _ h => by cases h
  refine C46_diff s3 (fun x hx => ⟨hx, fun t => full_bump hx⟩) fun m hm x hx => ?_
  have h1 : m = 1 := by
    have l : (runOps ([.gp .zero rbf none none] ++ [.diff 0 0] ++ [.condition 0 (.exact 1 (.num [[0]]) (eye 1) [1])] ++ [.call 1 0]) {}).ms.length = 2 := by
      decide +kernel
    obtain ⟨_, hs, _⟩ := id hm
    have := (List.getElem?_eq_some_iff.1 hs).1
    rw [l] at this
    interval_cases m
    · exact absurd (attached_iff.1 hm) (by decide +kernel)
    · rfl
  subst h1
  have hm0 : Attached (runOps ([.gp .zero rbf none none] ++ [.diff 0 0] ++ [.condition 0 (.exact 1 (.num [[0]]) (eye 1) [1])] ++ [.call 1 0]) {}) 1 0 :=
    attached_iff.2 (by decide +kernel)
  refine (C12_smooth_twin s3 (.copy (b := [.gp .zero rbf none none, .diff 0 0, .condition 0 (.exact 1 (.num [[0]]) (eye 1) [1])])
    ⟨⟨_, rfl⟩, rfl, 1, attached_iff.2 (by decide +kernel)⟩ hm) hm hm0 (fun t => full_bump hx) fun t => full_bump hx).2 (g0 s3 first hm0 hx)

theorem swing_runs : Runs swing [.gp .zero rbf none none] (.diff 0 0) 1 := ⟨⟨_, rfl⟩, rfl, 0, attached_iff.2 (by decide +kernel)⟩

/-- In the posterior, at any place. The covariance between the derivative and itself is the mixed second derivative. -/
example (a : ℝ) : ∃ (B : ℝ → Mat) (A : Mat), (∀ t, KernelCall (runOps swing {}) 1 0 1 (.num [[a + t]]) (.num [[a]]) (B t)) ∧
    KernelCall (runOps swing {}) 1 1 1 (.num [[a]]) (.num [[a]]) A ∧ HasDerivAt (fun t => (B t).e 0 0) (A.e 0 0) 0 := by
  have h1 : Attached (runOps swing {}) 1 1 := attached_iff.2 (by decide +kernel)
  have hx : full 1 [a] := show 0 < 1 by omega
  obtain ⟨B, A, h, h', hd⟩ := (C12_regular swing_solid.regular swing_runs h1 hx).2.1 1 h1 [[a]] (.one hx)
  exact ⟨B, A, h, h', hd 0 (by simp)⟩

/-- The process is smooth in the prior and in the posterior. -/
example (a : ℝ) : SmoothCalls (runOps swing {}) 0 0 0 [a] ∧ SmoothCalls (runOps swing {}) 1 0 0 [a] := by
  have hx : full 0 [a] := show 0 < 1 by omega
  have h0 := C12_smooth swing_solid swing_runs (m := 0) (x := [a]) (attached_iff.2 (by decide +kernel)) hx
  exact ⟨h0, (C12_smooth_posterior swing_solid (before := [.gp .zero rbf none none, .diff 0 0]) rfl
    (attached_iff.2 (by decide +kernel)) fun t => full_bump hx).2 h0⟩

/-- **C23.** The derivative that was taken before conditioning and the one that was taken after it, of `post(p)`. -/
theorem swing_twins : Twin swing 1 1 3 :=
  .diff swing_runs (b' := [.gp .zero rbf none none, .diff 0 0, .condition 0 (.exact 1 (.num [[0]]) (eye 1) [1]), .call 1 0]) (p' := 2)
    ⟨⟨_, rfl⟩, rfl, 1, attached_iff.2 (by decide +kernel)⟩ (attached_iff.2 (by decide +kernel)) (attached_iff.2 (by decide +kernel))
    (.symm (.copy (b := [.gp .zero rbf none none, .diff 0 0, .condition 0 (.exact 1 (.num [[0]]) (eye 1) [1])]) (m' := 1)
      ⟨⟨_, rfl⟩, rfl, 1, attached_iff.2 (by decide +kernel)⟩ (attached_iff.2 (by decide +kernel))))

/-- The first feature. -/
def lead : Fn := .user fun x => x.headD 0

/-- With `p` a GP: the derivative of `(p + 2 * p) * (lambda x: x)`. -/
noncomputable def swell : List Op :=
  [.gp .zero rbf none none] ++ [.scale 0 2] ++ [.add 0 1 [0]] ++ [.fmul 2 lead] ++ [.diff 3 0]

theorem swell_solid : Solid full swell := by
  have s0 : Solid full [.gp .zero rbf none none] := by
    refine C46_extend (o := .gp .zero rbf none none) .nil ⟨trivial, trivial, rbf_psd⟩ (fun _ _ h => by cases h) (fun m e he _ => ?_) fun _ _ _ h => by cases h
    simp only [Op.written, List.mem_singleton] at he
    subst he
    exact ⟨trivial, trivial⟩
  have s1 := C46_extend (o := .scale 0 2) s0 trivial (fun _ _ h => by cases h) (fun m e he _ => by
    simp only [Op.written, List.mem_singleton] at he
    subst he
    exact fun x hx => hx) fun _ _ _ h => by cases h
  have s2 := C46_extend (o := .add 0 1 [0]) s1 trivial (fun _ _ h => by cases h) (fun m e he _ => by
    simp only [Op.written, List.mem_singleton] at he
    subst he
    exact ⟨fun x hx => hx, fun x hx => hx⟩) fun _ _ _ h => by cases h
  have s3 := C46_extend (o := .fmul 2 lead) s2 trivial (fun _ _ h => by cases h) (fun m e he _ => by
    simp only [Op.written, List.mem_singleton] at he
    subst he
    exact ⟨fun x hx => hx, trivial⟩) fun _ _ _ h => by cases h
  refine C46_diff s3 (fun x hx => ⟨hx, fun t => full_bump hx⟩) fun m hm x hx => ?_
  have r0 : Runs (swell.take 4) [] (.gp .zero rbf none none) 0 := ⟨⟨_, rfl⟩, rfl, 0, attached_iff.2 (by decide +kernel)⟩
  have r1 : Runs (swell.take 4) (swell.take 1) (.scale 0 2) 1 := ⟨⟨_, rfl⟩, rfl, 0, attached_iff.2 (by decide +kernel)⟩
  have r2 : Runs (swell.take 4) (swell.take 2) (.add 0 1 [0]) 2 := ⟨⟨_, rfl⟩, rfl, 0, attached_iff.2 (by decide +kernel)⟩
  have r3 : Runs (swell.take 4) (swell.take 3) (.fmul 2 lead) 3 := ⟨⟨_, rfl⟩, rfl, 0, attached_iff.2 (by decide +kernel)⟩
  have hm2 := s3.regular.reads.refs hm (r3.of (d := .fmul 2 lead) rfl) 2 (by simp [ProcDef.refs])
  have hm1 := s3.regular.reads.refs hm2 (r2.of (d := .sum 0 1) rfl) 1 (by simp [ProcDef.refs])
  have hm0 := s3.regular.reads.refs hm1 (r1.of (d := .scale 0 2) rfl) 0 (by simp [ProcDef.refs])
  have c0 := C12_smooth_gp s3 r0 hm0 (fun t => full_bump hx) (differentiableAt_const (0 : ℝ)) (rbf_smooth hx)
  have c1 := C12_smooth_scale s3 r1 hm1 (fun t => full_bump hx) c0
  have c2 := C12_smooth_sum s3 r2 hm2 (fun t => full_bump hx) c0 c1
  refine C12_smooth_fn s3 (f := lead) trivial (.inr r3) hm (fun t => full_bump hx) ?_ c2
  have e : (fun t => lead.val (bump 0 t x)) = fun t => x.headD 0 + t := funext fun t => headD_bump hx
  rw [e]
  fun_prop

/-- Its derivatives return. -/
example (a : ℝ) : ∃ v, MeanCall (runOps swell {}) 0 4 (.num [[a]]) v := by
  obtain ⟨v, hv, _⟩ := swell_solid.regular.mean (m := 0) (p := 4) (xs := [[a]]) (attached_iff.2 (by decide +kernel))
    (.one (show 0 < 1 by omega))
  exact ⟨v, hv⟩

/-- **C23.** In the posterior, both derivatives have the same mean. -/
example (a : ℝ) : ∃ v, MeanCall (runOps swing {}) 1 1 (.num [[a]]) v ∧ MeanCall (runOps swing {}) 1 3 (.num [[a]]) v := by
  have h1 : Attached (runOps swing {}) 1 1 := attached_iff.2 (by decide +kernel)
  have h3 : Attached (runOps swing {}) 1 3 := attached_iff.2 (by decide +kernel)
  have hx : ∀ p, full p [a] := fun p => show 0 < 1 by omega
  obtain ⟨v, hv, _⟩ := swing_solid.regular.mean h1 (.one (hx 1))
  exact ⟨v, hv, (C23_regular swing_solid.regular swing_twins h1 h3).1 _ (.one (hx 1)) (.one (hx 3)) v hv⟩

end Stheno
