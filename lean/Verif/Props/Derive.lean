import Mathlib.Analysis.Calculus.Deriv.Prod
import Verif.Derive
import Verif.Study
import Verif.Point
import Verif.Props.Sound

/-!
# Independence, derivatives, concatenation, copies: C09, C12, C15, C23, C33
-/

namespace Stheno

open Matrix

set_option maxRecDepth 4000

section
variable {V : Type} [AddCommGroup V] [Module ℝ V] {I : Interp V} {ops before : List Op} {G : Dom} {m : MId}
  {p q r s : PId} {x y : Input} {vs ws : List V} {ord : List MId} {xs ys : List Pt} {mean : MExpr} {k : KExpr}
  {om : Option MId} {on : Option String}

/-! ## C09 -/

/-- Kernels of a process with the processes before it, in the measures in which the operation created it. -/
theorem Makes.look {o : Op} {d : ProcDef} (hm : Makes ops before o r d) (hat : Attached (runOps (before ++ [o]) {}) m r) :
    ∃ (lk : PId → PId → Option KExpr) (lm : PId → Option MExpr), kernelAt (runOps ops {}) m r r = defKernel m lk d ∧
      meanAt (runOps ops {}) m r = defMean m lm d ∧
      (∀ i ∈ members (runOps before {}) m, lm i = meanAt (runOps ops {}) m i) ∧
      (∀ i ∈ members (runOps before {}) m, ∀ j ∈ members (runOps before {}) m, lk i j = kernelAt (runOps ops {}) m i j) ∧
      ∀ q ∈ members (runOps before {}) m,
        kernelAt (runOps ops {}) m r q = defLeft m lk q d ∧ kernelAt (runOps ops {}) m q r = defRight m lk q d := by
  obtain ⟨after, e⟩ := hm.split
  have iv := Inv.reach ops
  obtain ⟨a', es, es', ha', hd, hk⟩ := written_attached (older := []) (younger := [])
    (by rw [Op.makes_written hm.makes, hm.id]; rfl) hat
  rw [List.map_nil, List.append_nil] at hk
  obtain ⟨b, hb, _, hbp, t, ht⟩ := ops_grow _ after ha'
  have eo : before ++ [o] ++ after = ops := by rw [e]; simp
  rw [eo] at hb
  have hd' : b.defs = (t ++ es) ++ (r, d) :: es' := by rw [← ht, hd]; simp
  rw [← hbp] at hk
  have hn := (iv.wf.ms m b hb).nodup
  rw [AMeas.ps, knownOf, hd'] at hn
  simp only [List.map_append, List.map_cons, List.reverse_append, List.reverse_cons, List.append_assoc] at hn
  have hr' : r ∉ (t ++ es).map (·.1) ∧ ∀ q ∈ members (runOps before {}) m, q ∉ (t ++ es).map (·.1) ∧ q ≠ r := by
    rw [← List.append_assoc, ← knownOf, hk, List.nodup_append] at hn
    obtain ⟨_, h2, h3⟩ := hn
    constructor
    · intro h
      rw [List.singleton_append, List.nodup_cons] at h2
      refine h2.1 ?_
      simp only [List.map_append, List.mem_append, List.mem_reverse] at h ⊢
      exact h.symm
    · intro q hq
      constructor
      · intro h
        refine h3 q hq q ?_ rfl
        simp only [List.map_append, List.mem_append, List.mem_reverse] at h ⊢
        exact .inr h.symm
      · intro h
        exact h3 q hq r (by simp) h
  have look : ∀ i j, kernelAt (runOps ops {}) m i j = lookKDefs m ((specOps ops {}).baseK b) b.basePs b.defs i j := by
    intro i j
    rw [iv.kernelAt m i j, kernel_eq (fun m a h => (iv.wf.ms m a h).base_lt) hb]
  have lookM : ∀ i, meanAt (runOps ops {}) m i = lookMDefs m ((specOps ops {}).baseM b) b.basePs b.defs i := by
    intro i
    rw [iv.meanAt m i, mean_eq (fun m a h => (iv.wf.ms m a h).base_lt) hb]
  refine ⟨lookKDefs m ((specOps ops {}).baseK b) b.basePs es', lookMDefs m ((specOps ops {}).baseM b) b.basePs es', ?_, ?_,
    fun i hi => ?_, fun i hi j hj => ?_, fun q hq => ⟨?_, ?_⟩⟩
  · rw [look, hd', lookKDefs_append hr'.1 hr'.1]
    simp only [lookKDefs, if_true]
  · rw [lookM, hd', lookMDefs_append hr'.1]
    simp only [lookMDefs, if_true]
  · rw [lookM, hd', lookMDefs_append (hr'.2 i hi).1]
    simp only [lookMDefs]
    rw [if_neg (hr'.2 i hi).2]
  · rw [look, hd', lookKDefs_append (hr'.2 i hi).1 (hr'.2 j hj).1]
    simp only [lookKDefs]
    rw [if_neg (hr'.2 i hi).2, if_neg (hr'.2 j hj).2]
  · rw [look, hd', lookKDefs_append hr'.1 (hr'.2 q hq).1]
    simp only [lookKDefs, if_true]
    rw [if_neg (hr'.2 q hq).2, if_pos (hk ▸ hq)]
  · rw [look, hd', lookKDefs_append (hr'.2 q hq).1 hr'.1]
    simp only [lookKDefs, if_true]
    rw [if_neg (hr'.2 q hq).2, if_pos (hk ▸ hq)]

/-- **C09.** The covariance of a new GP with every process already in its measure is the zero kernel, in both
directions, for any means and kernels; however the model is extended afterwards. -/
theorem C09_table (hm : Runs ops before (.gp mean k om on) r)
    (hat : Attached (runOps (before ++ [.gp mean k om on]) {}) m r) (hq : q ∈ members (runOps before {}) m) :
    kernelAt (runOps ops {}) m r q = some .zero ∧ kernelAt (runOps ops {}) m q r = some .zero := by
  obtain ⟨lk, _, _, _, _, _, h⟩ := (hm.of (d := .indep mean k) rfl).look hat
  exact h q hq

/-- **C09.** In any reading, a new GP is uncorrelated, at all inputs, with all processes that do not involve it:
those already in the measure, later new GPs, and everything derived from such. -/
theorem C09_reading (h : I.Reads ops) (hm : Runs ops before (.gp mean k om on) r)
    (hat : Attached (runOps (before ++ [.gp mean k om on]) {}) m r) (hq : Apart ops before m r q)
    (hx : I.F m r x = some vs) (hy : I.F m q y = some ws) : ∀ v ∈ vs, ∀ w ∈ ws, (I.S m).C v w = 0 :=
  h.apart (hm.of (d := .indep mean k) rfl) hat hq x y vs ws hx hy

/-- **C09.** For regular programs, kernels between a new GP and processes that do not involve it are zero. -/
theorem C09_regular (h : Regular G ops) (hm : Runs ops before (.gp mean k om on) r)
    (hat : Attached (runOps (before ++ [.gp mean k om on]) {}) m r) (hq : Apart ops before m r q)
    (hr : Attached (runOps ops {}) m r) (hqa : Attached (runOps ops {}) m q) (hx : Rows (G r) xs) (hy : Rows (G q) ys) :
    (∀ A, KernelCall (runOps ops {}) m r q (.num xs) (.num ys) A → ∀ i < xs.length, ∀ j < ys.length, A.e i j = 0) ∧
    ∀ A, KernelCall (runOps ops {}) m q r (.num ys) (.num xs) A → ∀ j < ys.length, ∀ i < xs.length, A.e j i = 0 := by
  obtain ⟨vs, hF, lF⟩ := h.value hr hx
  obtain ⟨ws, hG, lG⟩ := h.value hqa hy
  have key : ∀ i < xs.length, ∀ j < ys.length, ((reading ops).S m).C (vs.getD i 0) (ws.getD j 0) = 0 := by
    intro i hi j hj
    rw [← lF] at hi; rw [← lG] at hj
    refine C09_reading h.reads hm hat hq hF hG _ ?_ _ ?_ <;> simp [hi, hj]
  refine ⟨fun A hA i hi j hj => ?_, fun A hA j hj i hi => ?_⟩
  · rw [(h.kernel_eq hr hqa hx hy hA hF hG).e i (hi.trans_eq lF.symm) j (hj.trans_eq lG.symm)]
    exact key i hi j hj
  · rw [(h.kernel_eq hqa hr hy hx hA hG hF).e j (hj.trans_eq lG.symm) i (hi.trans_eq lF.symm)]
    exact (((reading ops).S m).symm _ _).trans (key i hi j hj)

/-- Process 6 of `study`, a new GP in the second posterior, and process 7, a copy of an earlier process that was made
after it. -/
example (xs ys : List Pt) {A : Mat} (hA : KernelCall (runOps study {}) 2 6 7 (.num xs) (.num ys) A) :
    ∀ i < xs.length, ∀ j < ys.length, A.e i j = 0 :=
  (C09_regular (before := study.take 8) study_regular (study_runs rfl rfl ⟨2, attached_iff.2 rfl⟩)
    (attached_iff.2 rfl)
    (.made (b := study.take 9) (o := .call 2 3) (after := study.drop 10) (older := []) (younger := []) rfl rfl
      (attached_iff.2 rfl) trivial (fun p hp => by
        cases List.mem_singleton.1 hp
        exact .old (mem_members.2 (attached_iff.2 rfl))))
    (attached_iff.2 rfl) (attached_iff.2 rfl) (rows_off (by decide)) (rows_off (by decide))).1 A hA

/-! ## C12 -/

theorem bump_eq (d : ℕ) (t : ℝ) (x : Pt) : bump d t x = x.set d (x.getD d 0 + t) := by
  apply List.ext_getElem?
  intro i
  rw [bump, List.getElem?_modify, List.getElem?_set]
  by_cases h : d = i
  · subst h
    by_cases hd : d < x.length
    · simp [hd]
    · simp [hd]
  · simp [h]

/-- **C12.** In any reading in which covariance matrices of observations are positive definite: where `p.diff(d)` has
a value, `p` has values on the line through it in direction `d`, and the value of `p.diff(d)` is the mean-square
derivative of these, in every measure `p.diff(d)` is in. -/
theorem C12_reading {d : ℕ} (h : I.Reads ops) (hf : I.Firm ops) (hm : Runs ops before (.diff p d) r)
    (hr : Attached (runOps ops {}) m r) {x : Pt} {w : V} (hw : I.F m r (.num [x]) = some [w]) : d < x.length ∧
      ∃ f : ℝ → V, (∀ t, I.F m p (.num [x.set d (x.getD d 0 + t)]) = some [f t]) ∧
        HasDerivAt (fun t => (I.S m).E (f t)) ((I.S m).E w) 0 ∧
        ∀ v, HasDerivAt (fun t => (I.S m).C (f t) v) ((I.S m).C w v) 0 := by
  simp only [← bump_eq]
  rw [h.diff hr (hm.of (d := .diff p d) rfl)] at hw
  obtain ⟨x', hx', hd⟩ := mapM_source hw w (by simp)
  cases List.mem_singleton.1 hx'
  obtain ⟨ha, -⟩ := RF.der_some hd
  refine ⟨ha.1, fun t => pointOf (I.F m p) (bump d t x), fun t => ?_, h.slope hf (hm.of (d := .diff p d) rfl) m hr x w hd⟩
  obtain ⟨v, hv⟩ := ha.2 t
  rw [hv]; simp [pointOf, hv]

/-- **C12.** The values at several rows are the values at the single rows. -/
theorem C12_rows {d : ℕ} (h : I.Reads ops) (hm : Runs ops before (.diff p d) r) (hr : Attached (runOps ops {}) m r) (xs : List Pt)
    (ws : List V) : I.F m r (.num xs) = some ws ↔ List.Forall₂ (fun x w => I.F m r (.num [x]) = some [w]) xs ws := by
  have key : ∀ x w, I.F m r (.num [x]) = some [w] ↔ I.der (I.F m p) d x = some w := by
    intro x w
    rw [h.diff hr (hm.of (d := .diff p d) rfl), List.mapM_cons, List.mapM_nil]
    cases I.der (I.F m p) d x <;> simp
  simp only [key]
  rw [h.diff hr (hm.of (d := .diff p d) rfl)]
  induction xs generalizing ws with
  | nil => cases ws <;> simp
  | cons x xs ih =>
    rw [List.mapM_cons]
    cases hx : I.der (I.F m p) d x with
    | none => cases ws <;> simp [hx]
    | some w =>
      cases hxs : xs.mapM (I.der (I.F m p) d) with
      | none =>
        cases ws with
        | nil => simp
        | cons w' ws => simp [← ih, hxs]
      | some ws' =>
        cases ws with
        | nil => simp
        | cons w' ws => simp [← ih, hxs, hx]

/-- **C12.** Calls: the mean of `p.diff(d)` at `x` is the derivative of the mean of `p`, and the covariances of
`p.diff(d)` at `x` with any process at any input are the derivatives of those of `p`, in both arguments. -/
theorem C12_calls {d : ℕ} (h : I.Reads ops) (hf : I.Firm ops) (hm : Runs ops before (.diff p d) r)
    (hr : Attached (runOps ops {}) m r) {x : Pt} {w : V} (hw : I.F m r (.num [x]) = some [w]) :
    (∀ (u : ℝ → ℝ) (v : ℝ), (∀ t, MeanCall (runOps ops {}) m p (.num [x.set d (x.getD d 0 + t)]) [u t]) →
      MeanCall (runOps ops {}) m r (.num [x]) [v] → HasDerivAt u v 0) ∧
    (∀ s y ws, I.F m s y = some ws → ∀ (B : ℝ → Mat) (A : Mat),
      (∀ t, KernelCall (runOps ops {}) m p s (.num [x.set d (x.getD d 0 + t)]) y (B t) ∧ (B t).r = 1 ∧ (B t).c = ws.length) →
      KernelCall (runOps ops {}) m r s (.num [x]) y A → A.r = 1 → A.c = ws.length →
      ∀ j < ws.length, HasDerivAt (fun t => (B t).e 0 j) (A.e 0 j) 0) ∧
    ∀ s y ws, I.F m s y = some ws → ∀ (B : ℝ → Mat) (A : Mat),
      (∀ t, KernelCall (runOps ops {}) m s p y (.num [x.set d (x.getD d 0 + t)]) (B t) ∧ (B t).r = ws.length ∧ (B t).c = 1) →
      KernelCall (runOps ops {}) m s r y (.num [x]) A → A.r = ws.length → A.c = 1 →
      ∀ j < ws.length, HasDerivAt (fun t => (B t).e j 0) (A.e j 0) 0 := by
  simp only [← bump_eq]
  obtain ⟨-, f, hF, e1, e2⟩ := C12_reading h hf hm hr hw
  simp only [← bump_eq] at hF
  refine ⟨fun u v hu hv => ?_, fun s y ws hs B A hB hA rA cA j hj => ?_, fun s y ws hs B A hB hA rA cA j hj => ?_⟩
  · have eu : u = fun t => (I.S m).E (f t) := by
      funext t
      have := (h.mean (hu t) (hF t)).2 rfl
      simpa using this
    have ev := (h.mean hv hw).2 rfl
    rw [eu, show v = (I.S m).E w by simpa using ev]
    exact e1
  · have eB : (fun t => (B t).e 0 j) = fun t => (I.S m).C (f t) (ws.getD j 0) := by
      funext t
      exact (h.kernel (hB t).1 (hF t) hs).e (hB t).2.1 (hB t).2.2 0 Nat.one_pos j hj
    rw [eB, (h.kernel hA hw hs).e rA cA 0 Nat.one_pos j hj]
    exact e2 _
  · have eB : (fun t => (B t).e j 0) = fun t => (I.S m).C (ws.getD j 0) (f t) := by
      funext t
      exact (h.kernel (hB t).1 hs (hF t)).e (hB t).2.1 (hB t).2.2 j hj 0 Nat.one_pos
    rw [eB, (h.kernel hA hs hw).e rA cA j hj 0 Nat.one_pos]
    exact deriv_C_right (e2 _)

/-- **C12.** For regular programs: at the rows at which `p.diff(d)` can be called, its mean and its covariances with all
processes, in both arguments, are the derivatives of those of `p`, in every measure it is in. With `s` the derivative
itself, this says that its covariance is the mixed second derivative. -/
theorem C12_regular {d : ℕ} (h : Regular G ops) (hm : Runs ops before (.diff p d) r) (hr : Attached (runOps ops {}) m r) {x : Pt}
    (hx : G r x) :
    (∃ (u : ℝ → ℝ) (v : ℝ), (∀ t, MeanCall (runOps ops {}) m p (.num [x.set d (x.getD d 0 + t)]) [u t]) ∧
      MeanCall (runOps ops {}) m r (.num [x]) [v] ∧ HasDerivAt u v 0) ∧
    (∀ s, Attached (runOps ops {}) m s → ∀ ys, Rows (G s) ys → ∃ (B : ℝ → Mat) (A : Mat),
      (∀ t, KernelCall (runOps ops {}) m p s (.num [x.set d (x.getD d 0 + t)]) (.num ys) (B t)) ∧
      KernelCall (runOps ops {}) m r s (.num [x]) (.num ys) A ∧
      ∀ j < ys.length, HasDerivAt (fun t => (B t).e 0 j) (A.e 0 j) 0) ∧
    ∀ s, Attached (runOps ops {}) m s → ∀ ys, Rows (G s) ys → ∃ (B : ℝ → Mat) (A : Mat),
      (∀ t, KernelCall (runOps ops {}) m s p (.num ys) (.num [x.set d (x.getD d 0 + t)]) (B t)) ∧
      KernelCall (runOps ops {}) m s r (.num ys) (.num [x]) A ∧
      ∀ j < ys.length, HasDerivAt (fun t => (B t).e j 0) (A.e j 0) 0 := by
  simp only [← bump_eq]
  have hT : Lined (some d) (G r) (G p) := h.def_total (hm.of (d := .diff p d) rfl) ⟨x, hx⟩
  have hp := h.reads.refs hr (hm.of (d := .diff p d) rfl) p (by simp [ProcDef.refs])
  have hb : ∀ t, Rows (G p) [bump d t x] := fun t => .one ((hT x hx).2 t)
  have one : ∀ {α : Type} {l : List α}, l.length = 1 → ∃ a, l = [a] := fun {α l} h => List.length_eq_one_iff.1 h
  obtain ⟨ws, hw, lw⟩ := h.value hr (.one hx)
  obtain ⟨w, rfl⟩ := one lw
  obtain ⟨c1, c2, c3⟩ := C12_calls h.reads h.firm hm hr hw
  simp only [← bump_eq] at c1 c2 c3
  refine ⟨?_, fun s hs ys hy => ?_, fun s hs ys hy => ?_⟩
  · have : ∀ t, ∃ u, MeanCall (runOps ops {}) m p (.num [bump d t x]) [u] := fun t => by
      obtain ⟨v, hv, lv⟩ := h.mean hp (hb t)
      obtain ⟨u, rfl⟩ := one lv
      exact ⟨u, hv⟩
    choose u hu using this
    obtain ⟨v, hv, lv⟩ := h.mean hr (.one hx)
    obtain ⟨v, rfl⟩ := one lv
    exact ⟨u, v, hu, hv, c1 u v hu hv⟩
  · choose B hB rB cB using fun t => h.kernel hp hs (hb t) hy
    obtain ⟨A, hA, rA, cA⟩ := h.kernel hr hs (.one hx) hy
    obtain ⟨ws, hw, lw⟩ := h.value hs hy
    refine ⟨B, A, hB, hA, fun j hj => c2 s (.num ys) ws hw B A (fun t => ⟨hB t, rB t, (cB t).trans lw.symm⟩) hA rA
      (cA.trans lw.symm) j (hj.trans_eq lw.symm)⟩
  · choose B hB rB cB using fun t => h.kernel hs hp hy (hb t)
    obtain ⟨A, hA, rA, cA⟩ := h.kernel hs hr hy (.one hx)
    obtain ⟨ws, hw, lw⟩ := h.value hs hy
    refine ⟨B, A, hB, hA, fun j hj => c3 s (.num ys) ws hw B A (fun t => ⟨hB t, (rB t).trans lw.symm, cB t⟩) hA
      (rA.trans lw.symm) cA j (hj.trans_eq lw.symm)⟩

theorem single_split {α : Type} {a b : α} {l l' : List α} (h : [a] = l ++ b :: l') : l = [] ∧ a = b ∧ l' = [] := by
  cases l with
  | nil => cases h; exact ⟨rfl, rfl, rfl⟩
  | cons c l => cases l <;> cases h

/-- A GP with a linear kernel in the first feature, its derivative, and the posterior given a noisy value. -/
noncomputable def ramp : List Op :=
  [.gp .zero (.prim fun x y => x.headD 0 * y.headD 0) none none, .diff 0 0, .condition 0 (.exact 0 (.num [[1]]) (eye 1) [3])]

/-- The GP is `a * x` for a random number `a` with unit variance. The observation makes the mean of `a` three halves,
and its variance one half. -/
noncomputable def rampReading : Interp (ℝ × ℝ) where
  S m := if m = 0 then ⟨LinearMap.fst ℝ ℝ ℝ, (LinearMap.mul ℝ ℝ).compl₁₂ (LinearMap.snd ℝ ℝ ℝ) (LinearMap.snd ℝ ℝ ℝ),
      fun u v => by simp [mul_comm]⟩
    else ⟨LinearMap.fst ℝ ℝ ℝ + (3 / 2 : ℝ) • LinearMap.snd ℝ ℝ ℝ,
      (1 / 2 : ℝ) • (LinearMap.mul ℝ ℝ).compl₁₂ (LinearMap.snd ℝ ℝ ℝ) (LinearMap.snd ℝ ℝ ℝ), fun u v => by simp [mul_comm]⟩
  F _ p := if p = 0 then pointRF fun x => some (0, x.headD 0)
    else pointRF fun x => if 0 < x.length then some (0, 1) else none
  one := (1, 0)
  D := slopeOf

theorem rampReading_0 : (∀ u, (rampReading.S 0).E u = u.1) ∧ ∀ u v, (rampReading.S 0).C u v = u.2 * v.2 := ⟨fun _ => rfl, fun _ _ => rfl⟩

theorem rampReading_1 : (∀ u, (rampReading.S 1).E u = u.1 + 3 / 2 * u.2) ∧
    ∀ u v, (rampReading.S 1).C u v = 1 / 2 * (u.2 * v.2) := ⟨fun _ => rfl, fun _ _ => rfl⟩

theorem ramp_along (m : MId) (d : ℕ) (x : Pt) : (rampReading.F m 0).Along d x ↔ d < x.length :=
  ⟨fun h => h.1, fun h => ⟨h, fun _ => ⟨_, rfl⟩⟩⟩

theorem ramp_der (m : MId) : rampReading.der (rampReading.F m 0) 0 = fun x => if 0 < x.length then some (0, 1) else none := by
  funext x
  unfold Interp.der RF.der
  rw [ramp_along]
  by_cases hx : 0 < x.length
  · rw [if_pos hx, if_pos hx]
    obtain ⟨x0, x, rfl⟩ := List.exists_cons_of_length_pos hx
    have e : (fun t => pointOf (rampReading.F m 0) (bump 0 t (x0 :: x))) = fun t => ((0 : ℝ), x0 + t) := by
      funext t
      show (match pointRF (fun x => some ((0 : ℝ), x.headD 0)) (.num [bump 0 t (x0 :: x)]) with | some [v] => v | _ => 0) = _
      rw [pointRF]; simp [bump]
    rw [e]
    have hd : HasDerivAt (fun t : ℝ => ((0 : ℝ), x0 + t)) (0, 1) 0 :=
      HasDerivAt.prodMk (hasDerivAt_const _ _) ((hasDerivAt_id (0 : ℝ)).const_add x0)
    show slopeOf _ = _
    rw [slopeOf, if_pos hd.differentiableAt, hd.deriv]
  · rw [if_neg hx, if_neg hx]

theorem ramp_gram : noisyGram (rampReading.S 0) [((0 : ℝ), (1 : ℝ))] (eye 1) = (2 : ℝ) • (1 : Matrix (Fin 1) (Fin 1) ℝ) := by
  ext i j
  change Fin 1 at i j
  rw [Subsingleton.elim i 0, Subsingleton.elim j 0]
  show (rampReading.S 0).C (0, 1) (0, 1) + 1 = 2 * 1
  rw [rampReading_0.2]
  norm_num

theorem ramp_reads : rampReading.Reads ramp where
  ok m p := by
    show RF.OK (if p = 0 then _ else _)
    split <;> exact pointRF_ok _
  one_E m := by
    show (if m = 0 then _ else _ : SO (ℝ × ℝ)).E (1, 0) = 1
    split <;> simp
  one_C m v := by
    show (if m = 0 then _ else _ : SO (ℝ × ℝ)).C (1, 0) v = 0
    split <;> simp
  defs := by
    intro before o after e m older r d younger hw hat
    refine splits (ops := ramp) (P := fun before o => ∀ older r d younger,
      o.written (runOps before {}).gps.length m = older ++ (r, d) :: younger →
      Attached (runOps (before ++ [o]) {}) m r → rampReading.DefLaw (meanAt (runOps ramp {})) (kernelAt (runOps ramp {}))
        m (members (runOps before {}) m ++ older.map (·.1)) r d) ⟨?_, ?_, ?_, trivial⟩ before o after e older r d younger hw hat
    · intro older r d younger hw hat
      obtain ⟨rfl, hw, _⟩ := single_split hw
      cases hw
      have hm : m = 0 := by
        obtain ⟨a, ha, _⟩ := (Inv.reach _).attached.1 hat
        have : m < 1 := (List.getElem?_eq_some_iff.1 ha).1
        omega
      subst hm
      refine ⟨fun n => ?_, fun n => ?_, fun q hq => ?_⟩
      · exact point_mean (S := rampReading.S 0) (mean := .zero) trivial (fun x => rfl) n
      · exact point_kernel (S := rampReading.S 0) (k := .prim fun x y => x.headD 0 * y.headD 0) trivial (fun x y => rfl) n
      · have : members (runOps [] {}) 0 = [] := rfl
        simp [this] at hq
    · intro older r d younger hw hat
      obtain ⟨rfl, hw, _⟩ := single_split hw
      cases hw
      have hm : m = 0 := by
        obtain ⟨a, ha, _⟩ := (Inv.reach _).attached.1 hat
        have : m < 1 := (List.getElem?_eq_some_iff.1 ha).1
        omega
      subst hm
      refine ⟨fun xs => ?_, fun q x => ?_, fun x w hw => ?_⟩
      · rw [ramp_der]; rfl
      · show pointRF (fun x => if 0 < x.length then some (0, 1) else none) (.fdd q x) = none
        rw [pointRF]
      · have hd := slopeOf_some (RF.der_some hw).2
        refine ⟨?_, fun v => ?_⟩
        · simp only [rampReading_0.1]; exact ((ContinuousLinearMap.fst ℝ ℝ ℝ).hasFDerivAt.comp_hasDerivAt (0 : ℝ) hd :)
        · simp only [rampReading_0.2]; exact ((ContinuousLinearMap.snd ℝ ℝ ℝ).hasFDerivAt.comp_hasDerivAt (0 : ℝ) hd :).mul_const v.2
    · intro older r d younger hw
      cases older <;> cases hw
  post := by
    intro before m obs after e
    refine splits (ops := ramp) (P := fun before o => ∀ obs, o = .condition m obs → HasMeasure (runOps before {}) m →
      (∀ p ∈ members (runOps before {}) m, rampReading.F (runOps before {}).ms.length p = rampReading.F m p) ∧
      rampReading.PostLaw m (rampReading.S (runOps before {}).ms.length) obs) ⟨?_, ?_, ?_, trivial⟩ before _ after e obs rfl
    · intro obs e
      cases e
    · intro obs e
      cases e
    · intro obs e hm
      cases e
      refine ⟨fun p _ => rfl, .inr ⟨by decide, [((0 : ℝ), (1 : ℝ))], ?_, rfl, rfl, fun _ u v => ?_, fun _ _ u => ?_⟩⟩
      · show pointRF (fun x => some (0, x.headD 0)) (.num [[1]]) = _
        rw [pointRF, mapM_point]; rfl
      · show (rampReading.S 1).C u v = (rampReading.S 0).C u v - quadSum (rampReading.S 0) _ _ u v
        rw [quadSum, ramp_gram, rampReading_0.2, rampReading_1.2]
        have hi : ((2 : ℝ) • (1 : Matrix (Fin 1) (Fin 1) ℝ))⁻¹ = (1 / 2 : ℝ) • 1 := by
          refine Matrix.inv_eq_right_inv ?_
          rw [smul_mul_smul_comm]; norm_num
        rw [hi]
        show _ = _ - ∑ a : Fin 1, ∑ b : Fin 1, _
        rw [Fin.sum_univ_one, Fin.sum_univ_one]
        show _ = _ - (rampReading.S 0).C (0, 1) u * ((1 / 2) * 1) * (rampReading.S 0).C (0, 1) v
        rw [rampReading_0.2, rampReading_0.2]
        ring
      · show (rampReading.S 1).E u = (rampReading.S 0).E u + _
        rw [ramp_gram, rampReading_0.1, rampReading_1.1]
        have hi : ((2 : ℝ) • (1 : Matrix (Fin 1) (Fin 1) ℝ))⁻¹ = (1 / 2 : ℝ) • 1 := by
          refine Matrix.inv_eq_right_inv ?_
          rw [smul_mul_smul_comm]; norm_num
        rw [hi]
        show _ = _ + ∑ a : Fin 1, _
        rw [Fin.sum_univ_one]
        show _ = _ + (rampReading.S 0).C (0, 1) u * ((((1 / 2 : ℝ) • (1 : Matrix (Fin 1) (Fin 1) ℝ)) *ᵥ fun b => ([3] : List ℝ).getD b 0 - (rampReading.S 0).E (0, 1)) 0)
        rw [smul_mulVec, one_mulVec, rampReading_0.2, rampReading_0.1]
        show _ = _ + 1 * u.2 * ((1 / 2 : ℝ) * (3 - 0))
        ring

theorem ramp_firm : rampReading.Firm ramp := by
  intro before m obs after e
  refine splits (ops := ramp) (P := fun before o => ∀ obs, o = .condition m obs → HasMeasure (runOps before {}) m →
    rampReading.FirmObs m obs) ⟨?_, ?_, ?_, trivial⟩ before _ after e obs rfl
  · intro obs e
    cases e
  · intro obs e
    cases e
  · intro obs e _
    cases e
    intro zs hz
    have : rampReading.F 0 0 (.num [[1]]) = some [((0 : ℝ), (1 : ℝ))] := by
      show pointRF (fun x => some (0, x.headD 0)) (.num [[1]]) = _
      rw [pointRF, mapM_point]; rfl
    rw [this] at hz; cases hz
    refine ⟨?_, rfl⟩
    rw [ramp_gram]
    exact Matrix.PosDef.one.smul (by norm_num)

/-- In the posterior, the slope of the variance of `f` at 1 in one argument is the covariance of `f'` and `f`. -/
example (B : ℝ → Mat) (A : Mat)
    (hB : ∀ t, KernelCall (runOps ramp {}) 1 0 0 (.num [[1 + t]]) (.num [[1]]) (B t) ∧ (B t).r = 1 ∧ (B t).c = 1)
    (hA : KernelCall (runOps ramp {}) 1 1 0 (.num [[1]]) (.num [[1]]) A) (rA : A.r = 1) (cA : A.c = 1) :
    HasDerivAt (fun t => (B t).e 0 0) (A.e 0 0) 0 := by
  have hF : rampReading.F 1 0 (.num [[1]]) = some [((0 : ℝ), (1 : ℝ))] := by
    show pointRF (fun x => some (0, x.headD 0)) (.num [[1]]) = _
    rw [pointRF, mapM_point]; rfl
  have hG : rampReading.F 1 1 (.num [[1]]) = some [((0 : ℝ), (1 : ℝ))] := by
    show pointRF (fun x => if 0 < x.length then some (0, 1) else none) (.num [[1]]) = _
    rw [pointRF]; simp
  refine (C12_calls (x := [1]) (before := ramp.take 1) (p := 0) (d := 0) ramp_reads ramp_firm
    ⟨⟨ramp.drop 2, rfl⟩, rfl, 0, attached_iff.2 rfl⟩ (attached_iff.2 rfl) hG).2.1 0 (.num [[1]]) _ hF B A
    (fun t => ?_) hA rA cA 0 Nat.one_pos
  exact hB t

/-! ## C15 -/

mutual
/-- The processes, and where they are evaluated, whose concatenation `cross(*ps)` is at an input: all of `ps` at
numbers, and the given processes at FDDs and tuples of FDDs. -/
def parts (ps : List PId) : Input → Option (List (PId × Input))
  | .num xs => some (ps.map fun p => (p, .num xs))
  | .fdd p x => if p ∈ ps then some [(p, x)] else none
  | .tup zs => partsL ps zs
/-- The same for the elements of a tuple. -/
def partsL (ps : List PId) : List Input → Option (List (PId × Input))
  | [] => some []
  | z :: zs => do pure ((← parts ps z) ++ (← partsL ps zs))
end

theorem mapM_append_flat {α β : Type} (f : α → Option (List β)) (l l' : List α) :
    ((l ++ l').mapM f).map List.flatten = (do
      let a ← (l.mapM f).map List.flatten
      let b ← (l'.mapM f).map List.flatten
      pure (a ++ b)) := by
  rw [List.mapM_append]
  cases l.mapM f with
  | none => rfl
  | some a =>
    cases l'.mapM f with
    | none => rfl
    | some b => show some _ = some _; rw [List.flatten_append]

/-- **C15.** In any reading, `cross(*ps)` is the concatenation of its components, in every measure and at every input,
for any nesting. -/
theorem C15_reading {ps : List PId} (h : I.Reads ops) (hm : Runs ops before (.cross ps ord) r)
    (hr : Attached (runOps ops {}) m r) (z : Input) : ∀ l, parts ps z = some l →
    I.F m r z = (l.mapM fun e => I.F m e.1 e.2).map List.flatten := by
  obtain ⟨h1, h2⟩ := h.cross hr (hm.of (d := .cross ps) rfl)
  induction z using Input.ind with
  | num xs =>
    intro l hl
    rw [parts] at hl; cases hl
    rw [h1 xs]
    congr 1
    clear h1 h2 hm
    induction ps with
    | nil => rfl
    | cons p ps ih => rw [List.map_cons, List.mapM_cons, List.mapM_cons, ih]
  | fdd p x =>
    intro l hl
    rw [parts] at hl
    split at hl
    · next hp =>
      cases hl
      rw [h2 p hp x, List.mapM_cons]
      cases I.F m p x with
      | none => rfl
      | some vs => show some _ = some _; simp
    · cases hl
  | tup zs ih =>
    intro l hl
    rw [parts] at hl
    rw [(h.ok m r).tup]
    induction zs generalizing l with
    | nil => rw [partsL] at hl; cases hl; rfl
    | cons z zs ih' =>
      rw [partsL] at hl
      obtain ⟨l1, e1, hl⟩ := bind_some hl
      obtain ⟨l2, e2, hl⟩ := bind_some hl
      cases hl
      rw [mapM_append_flat, ← ih z (by simp) l1 e1, ← ih' (fun z hz => ih z (by simp [hz])) l2 e2, List.mapM_cons]
      cases I.F m r z with
      | none => rfl
      | some vs => cases zs.mapM (I.F m r) <;> rfl

/-- **C15.** The mean of a cross process is the concatenation of the means of its components, in any reading. -/
theorem C15_mean {ps : List PId} {z : Input} {l : List (PId × Input)} {vss : List (List V)} (h : I.Reads ops)
    (hm : Runs ops before (.cross ps ord) r) (hr : Attached (runOps ops {}) m r) (hz : parts ps z = some l)
    (hl : l.mapM (fun e => I.F m e.1 e.2) = some vss) {v : List ℝ} {us : List (List ℝ)}
    (hv : MeanCall (runOps ops {}) m r z v) (hu : List.Forall₂ (fun e u => MeanCall (runOps ops {}) m e.1 e.2 u) l us)
    (lu : us.map List.length = vss.map List.length) (lv : v.length = us.flatten.length) : v = us.flatten := by
  have hF := C15_reading h hm hr z l hz
  rw [hl] at hF
  have e := (h.mean hv hF).2 (by rw [lv, List.length_flatten, List.length_flatten, lu])
  rw [e]
  clear e hF hv lv hz
  induction hu generalizing vss with
  | nil => cases hl; rfl
  | @cons e u l us h1 _ ih =>
    obtain ⟨vs, vss', e1, e2, rfl⟩ := mapM_cons_some hl
    rw [List.map_cons, List.map_cons, List.cons.injEq] at lu
    rw [List.flatten_cons, List.flatten_cons, List.map_append, ih e2 lu.2, (h.mean h1 e1).2 lu.1]

theorem getD_flatten {α : Type} (vss1 : List (List α)) (vs : List α) (vss2 : List (List α)) (a : α) {i : ℕ}
    (hi : i < vs.length) : (vss1 ++ vs :: vss2).flatten.getD (vss1.flatten.length + i) a = vs.getD i a := by
  rw [List.flatten_append, List.flatten_cons, List.getD_eq_getElem?_getD, List.getD_eq_getElem?_getD,
    List.getElem?_append_right (by omega), List.getElem?_append_left (by omega)]
  congr 2
  omega

theorem flatten_lt {α : Type} (vss1 : List (List α)) (vs : List α) (vss2 : List (List α)) {i : ℕ}
    (hi : i < vs.length) : vss1.flatten.length + i < (vss1 ++ vs :: vss2).flatten.length := by
  simp only [List.flatten_append, List.flatten_cons, List.length_append]
  omega

/-- **C15.** The covariance of a cross process with any process consists of those of its components, stacked, in any
reading. -/
theorem C15_kernel {ps : List PId} {z : Input} {l1 l2 : List (PId × Input)} {e : PId × Input} {vss1 vss2 : List (List V)}
    {vs : List V} (h : I.Reads ops) (hm : Runs ops before (.cross ps ord) r) (hr : Attached (runOps ops {}) m r)
    (hz : parts ps z = some (l1 ++ e :: l2)) (h1 : l1.mapM (fun e => I.F m e.1 e.2) = some vss1)
    (he : I.F m e.1 e.2 = some vs) (h2 : l2.mapM (fun e => I.F m e.1 e.2) = some vss2) (hs : I.F m s y = some ws)
    {A B : Mat} (hA : KernelCall (runOps ops {}) m r s z y A) (rA : A.r = (vss1 ++ vs :: vss2).flatten.length)
    (cA : A.c = ws.length) (hB : KernelCall (runOps ops {}) m e.1 s e.2 y B) (rB : B.r = vs.length)
    (cB : B.c = ws.length) : ∀ i < vs.length, ∀ j < ws.length, A.e (vss1.flatten.length + i) j = B.e i j := by
  intro i hi j hj
  have hF := C15_reading h hm hr z _ hz
  rw [List.mapM_append, h1, List.mapM_cons, he, h2] at hF
  rw [(h.kernel hA hF hs).e rA cA _ (flatten_lt _ _ _ hi) j hj, (h.kernel hB he hs).e rB cB i hi j hj]
  show (I.S m).C _ _ = (I.S m).C _ _
  rw [getD_flatten _ _ _ _ hi]

theorem parts_fdds {ps : List PId} : ∀ (l : List (PId × List Pt)), (∀ e ∈ l, e.1 ∈ ps) →
    parts ps (.tup (l.map fun e => .fdd e.1 (.num e.2))) = some (l.map fun e => (e.1, .num e.2)) := by
  intro l hl
  rw [parts]
  induction l with
  | nil => rfl
  | cons e l ih =>
    rw [List.map_cons, partsL, ih fun e he => hl e (by simp [he]), parts, if_pos (hl e (by simp))]
    rfl

/-- **C15.** In regular programs, a cross process at FDDs of its components: the mean is the concatenation of
the means, and covariances with processes that existed before and with itself are stacked. -/
theorem C15_regular {qs : List PId} (h : Regular G ops) (hm : Runs ops before (.cross qs ord) r)
    (hr : Attached (runOps (before ++ [.cross qs ord]) {}) m r) (hr' : Attached (runOps ops {}) m r)
    {l : List (PId × List Pt)} (hl : l ≠ []) (hlq : ∀ e ∈ l, e.1 ∈ qs) (cq : ∀ e ∈ l, Rows (G e.1) e.2) {z : Input}
    (hz : z = .tup (l.map fun e => .fdd e.1 (.num e.2))) :
    (∀ us, List.Forall₂ (fun e u => MeanCall (runOps ops {}) m e.1 (.num e.2) u) l us →
      MeanCall (runOps ops {}) m r z us.flatten) ∧
    (∀ i ∈ members (runOps before {}) m, ∀ ys, Rows (G i) ys → ∃ A, KernelCall (runOps ops {}) m r i z (.num ys) A ∧
      ∀ l1 e l2, l = l1 ++ e :: l2 → ∀ B, KernelCall (runOps ops {}) m e.1 i (.num e.2) (.num ys) B →
      ∀ a < e.2.length, ∀ b < ys.length, A.e ((l1.map (·.2.length)).sum + a) b = B.e a b) ∧
    ∃ A, KernelCall (runOps ops {}) m r r z z A ∧
      ∀ l1 e l2, l = l1 ++ e :: l2 → ∀ l1' e' l2', l = l1' ++ e' :: l2' →
      ∀ B, KernelCall (runOps ops {}) m e.1 e'.1 (.num e.2) (.num e'.2) B →
      ∀ a < e.2.length, ∀ b < e'.2.length,
        A.e ((l1.map (·.2.length)).sum + a) ((l1'.map (·.2.length)).sum + b) = B.e a b := by
  have hM := hm.of (d := .cross qs) rfl
  have hat : ∀ q ∈ qs, Attached (runOps ops {}) m q := fun q hq =>
    h.reads.refs hr' hM q (by simpa [ProcDef.refs] using hq)
  have hT : TupOf G qs z := by
    refine ⟨_, by simpa using hl, hz, fun a ha => ?_⟩
    obtain ⟨e, he, rfl⟩ := List.mem_map.1 ha
    exact ⟨e.1, hlq e he, e.2, rfl, cq e he⟩
  obtain ⟨c1, c2, c3⟩ := h.cross_calls hM hr hT
  -- values of the parts
  have hval : ∀ l' : List (PId × List Pt), (∀ e ∈ l', e.1 ∈ qs ∧ Rows (G e.1) e.2) → ∃ vss : List (List RV),
      l'.mapM (fun e => (reading ops).F m e.1 (.num e.2)) = some vss ∧
        vss.flatten.length = (l'.map (·.2.length)).sum := by
    intro l' hl'
    induction l' with
    | nil => exact ⟨[], rfl, rfl⟩
    | cons e l' ih =>
      obtain ⟨vss, e1, e2⟩ := ih fun e he => hl' e (by simp [he])
      have he := hl' e (by simp)
      obtain ⟨vs, hv, lv⟩ := h.value (hat e.1 he.1) he.2
      refine ⟨vs :: vss, by rw [List.mapM_cons, hv, e1]; rfl, ?_⟩
      rw [List.flatten_cons, List.length_append, e2, lv, List.map_cons, List.sum_cons]
  have hmm : ∀ l' : List (PId × List Pt), (l'.map fun e => (e.1, Input.num e.2)).mapM
      (fun e => (reading ops).F m e.1 e.2) = l'.mapM fun e => (reading ops).F m e.1 (.num e.2) := by
    intro l'
    induction l' with
    | nil => rfl
    | cons e l' ih => rw [List.map_cons, List.mapM_cons, List.mapM_cons, ih]
  have hF : (reading ops).F m r z = (l.mapM fun e => (reading ops).F m e.1 (.num e.2)).map List.flatten := by
    rw [hz, C15_reading h.reads hm hr' _ _ (parts_fdds l hlq), hmm]
  -- splitting the values
  have hsplit : ∀ l1 e l2, l = l1 ++ e :: l2 → ∀ vs, (reading ops).F m r z = some vs → ∃ us : List RV,
      (reading ops).F m e.1 (.num e.2) = some us ∧ us.length = e.2.length ∧
      ∀ a < e.2.length, vs.getD ((l1.map (·.2.length)).sum + a) 0 = us.getD a 0 ∧
        (l1.map (·.2.length)).sum + a < vs.length := by
    intro l1 e l2 el vs hvs
    have he : e.1 ∈ qs := hlq e (by rw [el]; simp)
    obtain ⟨vss1, e1, n1⟩ := hval l1 fun e he => ⟨hlq e (by rw [el]; simp [he]), cq e (by rw [el]; simp [he])⟩
    obtain ⟨vss2, e2, _⟩ := hval l2 fun e he => ⟨hlq e (by rw [el]; simp [he]), cq e (by rw [el]; simp [he])⟩
    obtain ⟨us, hu, lu⟩ := h.value (hat e.1 he) (cq e (by rw [el]; simp))
    rw [hF, el, List.mapM_append, e1, List.mapM_cons, hu, e2] at hvs
    cases hvs
    refine ⟨us, hu, lu, fun a ha => ?_⟩
    rw [← n1]
    exact ⟨getD_flatten vss1 us vss2 0 (lu.symm ▸ ha), flatten_lt vss1 us vss2 (lu.symm ▸ ha)⟩
  refine ⟨fun us hu => ?_, fun i hi ys hy => ?_, ?_⟩
  · obtain ⟨v, vs, hv, hFv, ev, ln⟩ := c1
    have : v = us.flatten := by
      rw [ev]
      rw [hF] at hFv
      obtain ⟨vss, e1, rfl⟩ := Option.map_eq_some_iff.1 hFv
      clear ev hFv hv hF hsplit c2 c3 hT hz hl ln
      induction hu generalizing vss with
      | nil => cases e1; rfl
      | @cons e u l us hu _ ih =>
        obtain ⟨vs, vss', e2, e3, rfl⟩ := mapM_cons_some e1
        rw [List.flatten_cons, List.flatten_cons, List.map_append, ih (fun e he => hlq e (by simp [he])) (fun e he => cq e (by simp [he])) vss' e3]
        congr 1
        have he := hlq e (by simp)
        exact (h.mean_eq (hat e.1 he) (cq e (by simp)) hu e2).symm
    rw [← this]; exact hv
  · obtain ⟨A, vs, ws, hA, hFv, hG, hE⟩ := c3 i hi ys hy
    refine ⟨A, hA, fun l1 e l2 el B hB a ha b hb => ?_⟩
    obtain ⟨us, hu, lu, hg⟩ := hsplit l1 e l2 el vs hFv
    have he : e.1 ∈ qs := hlq e (by rw [el]; simp)
    obtain ⟨after, eo⟩ := hm.split
    have hia : Attached (runOps ops {}) m i := by
      have := mem_members.1 hi
      obtain ⟨b0, hb0, hib⟩ := (Inv.reach before).attached.1 this
      obtain ⟨b', hb', _, hbp, t, ht⟩ := ops_grow before (.cross qs ord :: after) hb0
      rw [← eo] at hb'
      refine (Inv.reach ops).attached.2 ⟨b', hb', ?_⟩
      rw [AMeas.ps, mem_knownOf] at hib ⊢
      rw [hbp, ← ht]
      exact hib.imp id fun h => by simp only [List.map_append, List.mem_append]; exact .inr h
    obtain ⟨ws', hG', lG⟩ := h.value hia hy
    rw [hG] at hG'; cases hG'
    rw [hE.e _ (hg a ha).2 b (hb.trans_eq lG.symm),
      (h.kernel_eq (hat e.1 he) hia (cq e (by rw [el]; simp)) hy hB hu hG).e a (ha.trans_eq lu.symm) b (hb.trans_eq lG.symm)]
    show ((reading ops).S m).C _ _ = ((reading ops).S m).C _ _
    rw [(hg a ha).1]
  · obtain ⟨A, vs, hA, hFv, hE⟩ := c2
    refine ⟨A, hA, fun l1 e l2 el l1' e' l2' el' B hB a ha b hb => ?_⟩
    obtain ⟨us, hu, lu, hg⟩ := hsplit l1 e l2 el vs hFv
    obtain ⟨us', hu', lu', hg'⟩ := hsplit l1' e' l2' el' vs hFv
    have he : e.1 ∈ qs := hlq e (by rw [el]; simp)
    have he' : e'.1 ∈ qs := hlq e' (by rw [el']; simp)
    rw [hE.e _ (hg a ha).2 _ (hg' b hb).2, (h.kernel_eq (hat e.1 he) (hat e'.1 he') (cq e (by rw [el]; simp))
      (cq e' (by rw [el']; simp)) hB hu hu').e a (ha.trans_eq lu.symm) b (hb.trans_eq lu'.symm)]
    show ((reading ops).S m).C _ _ = ((reading ops).S m).C _ _
    rw [(hg a ha).1, (hg' b hb).1]

/-- The cross process of `study` at FDDs of `f` and of the sum. -/
example (xs ys : List Pt) (u u' : List ℝ) (hu : MeanCall (runOps study {}) 0 0 (.num xs) u)
    (hu' : MeanCall (runOps study {}) 0 2 (.num ys) u') :
    MeanCall (runOps study {}) 0 4 (.tup [.fdd 0 (.num xs), .fdd 2 (.num ys)]) (u ++ u') := by
  have := (C15_regular (before := study.take 4) (qs := [0, 2]) (ord := [0]) (r := 4) (m := 0) study_regular
    (study_runs rfl rfl ⟨0, attached_iff.2 rfl⟩) (attached_iff.2 rfl) (attached_iff.2 rfl)
    (l := [(0, xs), (2, ys)]) (by simp) (by simp) (fun e he => rows_off (by
      simp only [List.mem_cons, List.not_mem_nil, or_false] at he; rcases he with rfl | rfl <;> (clear hu hu'; simp))) rfl).1 [u, u'] (.cons hu (.cons hu' .nil))
  simpa using this

/-! ## C23 and C33 -/

/-- **C23.** In any reading, processes that were made in the same way from the same processes or from copies of them,
before or after conditioning, in any measures, have the same values in every measure that contains both. -/
theorem C23_reading (h : I.Reads ops) (ht : Twin ops m p q) (xs : List Pt) : I.F m p (.num xs) = I.F m q (.num xs) :=
  h.twin ht xs

/-- **C23.** For regular programs: deriving before or after conditioning gives the same means and kernels. -/
theorem C23_regular (h : Regular G ops) (ht : Twin ops m p q) (hp : Attached (runOps ops {}) m p)
    (hq : Attached (runOps ops {}) m q) :
    (∀ xs, Rows (G p) xs → Rows (G q) xs → ∀ v, MeanCall (runOps ops {}) m p (.num xs) v → MeanCall (runOps ops {}) m q (.num xs) v) ∧
    (∀ s, Attached (runOps ops {}) m s → ∀ xs ys, Rows (G p) xs → Rows (G q) xs → Rows (G s) ys → ∀ A B,
      KernelCall (runOps ops {}) m p s (.num xs) (.num ys) A → KernelCall (runOps ops {}) m q s (.num xs) (.num ys) B →
      A.Eqv B) ∧
    (∀ s, Attached (runOps ops {}) m s → ∀ xs ys, Rows (G p) xs → Rows (G q) xs → Rows (G s) ys → ∀ A B,
      KernelCall (runOps ops {}) m s p (.num ys) (.num xs) A → KernelCall (runOps ops {}) m s q (.num ys) (.num xs) B →
      A.Eqv B) ∧
    ∀ xs ys, Rows (G p) xs → Rows (G q) xs → Rows (G p) ys → Rows (G q) ys → ∀ A B, KernelCall (runOps ops {}) m p p (.num xs) (.num ys) A →
      KernelCall (runOps ops {}) m q q (.num xs) (.num ys) B → A.Eqv B := by
  have left : ∀ s, Attached (runOps ops {}) m s → ∀ xs ys, Rows (G p) xs → Rows (G q) xs → Rows (G s) ys → ∀ A B,
      KernelCall (runOps ops {}) m p s (.num xs) (.num ys) A → KernelCall (runOps ops {}) m q s (.num xs) (.num ys) B →
      A.Eqv B := by
    intro s hs xs ys hx hx' hy A B hA hB
    obtain ⟨vs, hF, lF⟩ := h.value hp hx
    obtain ⟨us, hU, lU⟩ := h.value hs hy
    have ha := h.kernel_eq hp hs hx hy hA hF hU
    have hb := h.kernel_eq hq hs hx' hy hB ((C23_reading h.reads ht xs).symm.trans hF) hU
    exact ha.trans hb.symm
  have right : ∀ s, Attached (runOps ops {}) m s → ∀ xs ys, Rows (G p) xs → Rows (G q) xs → Rows (G s) ys → ∀ A B,
      KernelCall (runOps ops {}) m s p (.num ys) (.num xs) A → KernelCall (runOps ops {}) m s q (.num ys) (.num xs) B →
      A.Eqv B := by
    intro s hs xs ys hx hx' hy A B hA hB
    obtain ⟨A', hA', _⟩ := h.kernel hp hs hx hy
    obtain ⟨B', hB', _⟩ := h.kernel hq hs hx' hy
    have h1 := C08_regular h hs hp hy hx hA hA'
    have h2 := C08_regular h hs hq hy hx' hB hB'
    have h3 := left s hs xs ys hx hx' hy A' B' hA' hB'
    refine ⟨h1.1.trans (h3.c.trans h2.1.symm), h1.2.1.trans (h3.r.trans h2.2.1.symm), fun i hi j hj => ?_⟩
    rw [h2.2.2 i hi j hj, h1.2.2 i (by rw [h1.1, h3.c, ← h2.1]; exact hi) j (by rw [h1.2.1, h3.r, ← h2.2.1]; exact hj)]
    exact h3.e j (by rw [← h2.2.1]; exact hj) i (by rw [← h2.1]; exact hi)
  refine ⟨fun xs hx hx' v hv => ?_, left, right, fun xs ys hx hx' hy hy' A B hA hB => ?_⟩
  · obtain ⟨vs, hF, lF⟩ := h.value hp hx
    obtain ⟨v', hv', _⟩ := h.mean hq hx'
    rw [h.mean_eq hp hx hv hF, ← h.mean_eq hq hx' hv' ((C23_reading h.reads ht xs).symm.trans hF)]
    exact hv'
  · obtain ⟨D, hD, _⟩ := h.kernel hq hp hx' hy
    exact (left p hp xs ys hx hx' hy A D hA hD).trans (right q hq ys xs hy hy' hx' D B hD hB)

/-- In measure 1 of `study`: the sum that was derived before conditioning and the sum of copies of its terms that
were made in the posterior. -/
theorem study_twins : Twin study 1 2 16 :=
  .sum (b := study.take 2) (b' := study.take 18) (study_runs rfl rfl ⟨0, attached_iff.2 rfl⟩)
    (study_runs rfl rfl ⟨1, attached_iff.2 rfl⟩) (attached_iff.2 rfl) (attached_iff.2 rfl)
    (.symm (.copy (b := study.take 16) (m' := 1) (study_runs rfl rfl ⟨1, attached_iff.2 rfl⟩) (attached_iff.2 rfl)))
    (.symm (.copy (b := study.take 17) (m' := 1) (study_runs rfl rfl ⟨1, attached_iff.2 rfl⟩) (attached_iff.2 rfl)))

example (xs ys : List Pt) {A B : Mat} (hA : KernelCall (runOps study {}) 1 2 2 (.num xs) (.num ys) A)
    (hB : KernelCall (runOps study {}) 1 16 16 (.num xs) (.num ys) B) : A.Eqv B :=
  (C23_regular study_regular study_twins (attached_iff.2 rfl) (attached_iff.2 rfl)).2.2.2
    xs ys (rows_off (by decide)) (rows_off (by decide)) (rows_off (by decide)) (rows_off (by decide)) A B hA hB

/-- **C33.** The tables: a copy has the mean and kernel of the original, and the same kernels with all processes that were in
the measure when it was made, among them the original. This holds for any means and kernels and at any input. -/
theorem C33_table {m' : MId} (hm : Runs ops before (.call m' p) r) (hat : Attached (runOps (before ++ [.call m' p]) {}) m r)
    (hp : p ∈ members (runOps before {}) m) :
    meanAt (runOps ops {}) m r = meanAt (runOps ops {}) m p ∧
    kernelAt (runOps ops {}) m r r = kernelAt (runOps ops {}) m p p ∧
    kernelAt (runOps ops {}) m r p = kernelAt (runOps ops {}) m p p ∧
    kernelAt (runOps ops {}) m p r = kernelAt (runOps ops {}) m p p ∧
    ∀ q ∈ members (runOps before {}) m, kernelAt (runOps ops {}) m r q = kernelAt (runOps ops {}) m p q ∧
      kernelAt (runOps ops {}) m q r = kernelAt (runOps ops {}) m q p := by
  obtain ⟨lk, lm, h1, e1, e2, h2, h3⟩ := (hm.of (d := .copy p) rfl).look hat
  have key : ∀ q ∈ members (runOps before {}) m, kernelAt (runOps ops {}) m r q = kernelAt (runOps ops {}) m p q ∧
      kernelAt (runOps ops {}) m q r = kernelAt (runOps ops {}) m q p := fun q hq =>
    ⟨(h3 q hq).1.trans (h2 p hp q hq), (h3 q hq).2.trans (h2 q hq p hp)⟩
  exact ⟨e1.trans (e2 p hp), h1.trans (h2 p hp p hp), (key p hp).1, (key p hp).2, key⟩

/-- **C33.** In any reading, a copy is the original, in all measures that contain it. -/
theorem C33_reading {m' : MId} (h : I.Reads ops) (hm : Runs ops before (.call m' p) r) (hr : Attached (runOps ops {}) m r) :
    I.F m r = I.F m p :=
  h.copy hr (hm.of (d := .copy p) rfl)

/-- **C33.** In any reading, at any inputs: copies have the mean and the covariances of the original, with all
processes. -/
theorem C33_calls {m' : MId} (h : I.Reads ops) (hm : Runs ops before (.call m' p) r) (hr : Attached (runOps ops {}) m r)
    (hF : I.F m p x = some vs) :
    (∀ u v, MeanCall (runOps ops {}) m r x u → MeanCall (runOps ops {}) m p x v → u.length = vs.length →
      v.length = vs.length → u = v) ∧
    ∀ s y ws A B, I.F m s y = some ws → KernelCall (runOps ops {}) m r s x y A → KernelCall (runOps ops {}) m p s x y B →
      A.r = vs.length → B.r = vs.length → A.c = ws.length → B.c = ws.length → A.Eqv B := by
  have hG : I.F m r x = some vs := (congrFun (C33_reading h hm hr) x).trans hF
  refine ⟨fun u v hu hv lu lv => ?_, fun s y ws A B hs hA hB rA rB cA cB => ?_⟩
  · rw [(h.mean hu hG).2 lu, (h.mean hv hF).2 lv]
  · refine ⟨rA.trans rB.symm, cA.trans cB.symm, fun i hi j hj => ?_⟩
    rw [rB] at hi; rw [cB] at hj
    rw [(h.kernel hA hG hs).e rA cA i hi j hj, (h.kernel hB hF hs).e rB cB i hi j hj]

/-- **C33.** In regular programs, copies have the mean and the covariances of the original, with all processes, among
them the original and other copies. -/
theorem C33_regular {m' : MId} (h : Regular G ops) (hm : Runs ops before (.call m' p) r) (hr : Attached (runOps ops {}) m r) :
    (∀ xs, Rows (G r) xs → ∀ v, MeanCall (runOps ops {}) m r (.num xs) v → MeanCall (runOps ops {}) m p (.num xs) v) ∧
    (∀ s, Attached (runOps ops {}) m s → ∀ xs ys, Rows (G r) xs → Rows (G s) ys → ∀ A B,
      KernelCall (runOps ops {}) m r s (.num xs) (.num ys) A → KernelCall (runOps ops {}) m p s (.num xs) (.num ys) B →
      A.Eqv B) ∧
    ∀ xs ys, Rows (G r) xs → Rows (G r) ys → ∀ A B, KernelCall (runOps ops {}) m r r (.num xs) (.num ys) A →
      KernelCall (runOps ops {}) m p p (.num xs) (.num ys) B → A.Eqv B := by
  have hT : Live G r → ∀ x, G r x → G p x := h.def_total (hm.of (d := .copy p) rfl)
  have hp := h.reads.refs hr (hm.of (d := .copy p) rfl) p (by simp [ProcDef.refs])
  obtain ⟨h1, h2, _, h4⟩ := C23_regular h (.copy hm hr) hr hp
  exact ⟨fun xs hx => h1 xs hx (hx.mono (hT hx.1)), fun s hs xs ys hx hy => h2 s hs xs ys hx (hx.mono (hT hx.1)) hy,
    fun xs ys hx hy => h4 xs ys hx (hx.mono (hT hx.1)) hy (hy.mono (hT hx.1))⟩

/-- Process 7 of `study` is a copy of process 3, in the second posterior. -/
example (xs ys : List Pt) {A B : Mat} (hA : KernelCall (runOps study {}) 2 7 8 (.num xs) (.num ys) A)
    (hB : KernelCall (runOps study {}) 2 3 8 (.num xs) (.num ys) B) : A.Eqv B :=
  (C33_regular (before := study.take 9) (m' := 2) study_regular (study_runs rfl rfl ⟨2, attached_iff.2 rfl⟩)
    (attached_iff.2 rfl)).2.1 8 (attached_iff.2 rfl) xs ys (rows_off (by decide)) (rows_off (by decide)) A B hA hB

end

end Stheno
