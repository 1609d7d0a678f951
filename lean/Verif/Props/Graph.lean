import Verif.GraphNames

/-!
# Properties of the measure graph: C02, C03, C04, C05, C16, C22

Every statement is about `runOps ops {}`: the heap after an arbitrary program of public operations, each
of which may have raised. `Attached`, `kernelAt`, `meanAt`, ... are the observers of `Verif/Api.lean`.
-/

namespace Stheno

/-- A program used as example: two GPs, their sum, a named GP, the posterior given an observation of the
sum, a GP added to the posterior, and a derivative of the sum, which lives in both measures. -/
noncomputable def demo : List Op :=
  [.gp .zero (.prim fun _ _ => 2) none none,
   .gp (.fn (.const 1)) (.prim fun _ _ => 3) (some 0) (some "g"),
   .add 0 1 [0],
   .condition 0 (.exact 2 (.num [[0]]) ⟨1, 1, fun _ _ => 1⟩ [5]),
   .gp .zero (.prim fun _ _ => 4) (some 1) none,
   .diff 2 0]

/-- The heap after `demo` and which processes are attached to which measure. -/
example : groups (runOps demo {}) 0 = [0, 1] ∧ groups (runOps demo {}) 2 = [0, 1] ∧
    groups (runOps demo {}) 3 = [1] ∧ groups (runOps demo {}) 4 = [0, 1] ∧
    gpNamed (runOps demo {}) 0 "g" = some 1 := ⟨rfl, rfl, rfl, rfl, rfl⟩

theorem demo_attached : Attached (runOps demo {}) 1 2 ∧ Attached (runOps demo {}) 1 3 ∧
    Attached (runOps demo {}) 1 4 ∧ Attached (runOps demo {}) 0 2 :=
  ⟨attached_iff.2 rfl, attached_iff.2 rfl, attached_iff.2 rfl, attached_iff.2 rfl⟩

theorem demo_not_attached : ¬ Attached (runOps demo {}) 0 3 := by
  rw [attached_iff]
  exact Bool.eq_false_iff.1 rfl

theorem demo_proper : Proper demo := by
  intro before m obs after h
  match before, h with
  | [_, _, _], h =>
    injection h with h1 h; injection h with h2 h; injection h with h3 h
    injection h with h4 h
    injection h4 with hm hobs
    subst h1 h2 h3 hm hobs
    exact ⟨trivial, fun p hp => by
      simp only [Obs.refs, List.mem_singleton] at hp
      subst hp
      exact attached_iff.2 rfl⟩
  | [], h => cases h
  | [_], h => cases h
  | [_, _], h => cases h
  | [_, _, _, _], h => cases h
  | [_, _, _, _, _], h => cases h
  | _ :: _ :: _ :: _ :: _ :: _ :: l, h =>
    simp only [demo, List.cons_append, List.cons.injEq, List.nil_eq, List.append_eq_nil_iff,
      reduceCtorEq, and_false] at h

/-! ## C02 -/

/-- **C02.** In a program that conditions only on processes the measure contains, every pair of attached
processes has a kernel and every attached process has a mean: the lookups terminate and return. -/
theorem C02_total (ops : List Op) (h : Proper ops) (m : MId) (p q : PId)
    (hp : Attached (runOps ops {}) m p) (hq : Attached (runOps ops {}) m q) :
    (∃ k w', getK m p q (runOps ops {}) = .ok k w') ∧
      ∃ f w', getM m p (runOps ops {}) = .ok f w' := by
  have hi := Inv.reach ops
  obtain ⟨a, ha, hpa⟩ := hi.attached.1 hp
  obtain ⟨a', ha', hqa⟩ := hi.attached.1 hq
  rw [ha] at ha'; cases ha'
  have hm := (List.getElem?_eq_some_iff.1 ha).1
  obtain ⟨tm, tk⟩ := total hi.wf.ms (sane_of_proper ops h) m a ha
  obtain ⟨k, hk⟩ := Option.isSome_iff_exists.1 (tk p hpa q hqa)
  obtain ⟨f, hf⟩ := Option.isSome_iff_exists.1 (tm p hpa)
  obtain ⟨w1, _, h1⟩ := Sim.getK hi.wf.ms hm p q _ hi.rel
  obtain ⟨w2, _, h2⟩ := Sim.getM hi.wf.ms hm p _ hi.rel
  rw [hk] at h1; rw [hf] at h2
  exact ⟨⟨k, w1, h1⟩, ⟨f, w2, h2⟩⟩

example : (∃ k w', getK 1 4 3 (runOps demo {}) = .ok k w') ∧
    ∃ f w', getM 1 4 (runOps demo {}) = .ok f w' :=
  C02_total demo demo_proper 1 4 3 demo_attached.2.2.1 demo_attached.2.1

/-- **C02, termination.** No operation ever runs out of the recursion bound, whether the program is proper
or not; the bound is the number of measures times twice the number of processes, up to a constant. -/
theorem C02_terminates (ops : List Op) (o : Op) : o.raises (runOps ops {}) ≠ some .fuel := by
  rw [(Inv.reach ops).raises]
  have h : Raises (· ≠ Err.fuel) o.spec := Raises.op (fun _ h => h) o
  cases hs : o.spec (specOps ops {}) with
  | ok v L => simp
  | error e L =>
    have := h _ _ _ hs
    simpa using this

example : Op.raises (.getK 1 4 4) (runOps demo {}) ≠ some .fuel := C02_terminates demo _

/-- A program that conditions measure 0 on a process of measure 1. -/
noncomputable def foreignDemo : List Op :=
  [.gp .zero (.prim fun _ _ => 2) none none,
   .gp .zero (.prim fun _ _ => 3) none none,
   .condition 0 (.exact 1 (.num [[0]]) ⟨1, 1, fun _ _ => 1⟩ [5])]

/-- **C02, why the hypothesis is needed.** Conditioning on a process that the measure does not contain is
accepted without an exception; afterwards a lookup in the posterior of an attached process fails. -/
theorem C02_foreign_observation_accepted :
    Op.raises (.condition 0 (.exact 1 (.num [[0]]) ⟨1, 1, fun _ _ => 1⟩ [5]))
      (runOps (foreignDemo.take 2) {}) = none ∧
    Attached (runOps foreignDemo {}) 2 0 ∧ kernelAt (runOps foreignDemo {}) 2 0 0 = none :=
  ⟨rfl, attached_iff.2 rfl, rfl⟩

/-! ## C03 -/

/-- **C03, kernels.** A covariance with a process that is not attached raises a `RuntimeError`, and nothing
observable changes. -/
theorem C03_kernel (ops : List Op) (m : MId) (p q : PId) (hm : HasMeasure (runOps ops {}) m)
    (h : ¬ Attached (runOps ops {}) m p ∨ ¬ Attached (runOps ops {}) m q) :
    ∃ w', getK m p q (runOps ops {}) = .error .runtime w' ∧ Same (runOps ops {}) w' := by
  have hi := Inv.reach ops
  have hm' : m < (specOps ops {}).ms.length := by rw [← hi.rel.len]; exact hm
  obtain ⟨a, ha⟩ : ∃ a, (specOps ops {}).ms[m]? = some a := ⟨_, List.getElem?_eq_getElem hm'⟩
  have hk : (specOps ops {}).kernel m p q = none := by
    cases hk : (specOps ops {}).kernel m p q with
    | none => rfl
    | some k =>
      rw [kernel_eq hi.wf.ms.stable.base_lt ha] at hk
      obtain ⟨h1, h2⟩ := lookKDefs_known hk
      rcases h with h | h
      · exact absurd (hi.attached.2 ⟨a, ha, h1⟩) h
      · exact absurd (hi.attached.2 ⟨a, ha, h2⟩) h
  obtain ⟨w', hw', h1⟩ := Sim.getK hi.wf.ms hm' p q _ hi.rel
  rw [hk] at h1
  exact ⟨w', h1, hi.same ⟨hw', hi.wf⟩⟩

/-- **C03, means.** -/
theorem C03_mean (ops : List Op) (m : MId) (p : PId) (hm : HasMeasure (runOps ops {}) m)
    (h : ¬ Attached (runOps ops {}) m p) :
    ∃ w', getM m p (runOps ops {}) = .error .runtime w' ∧ Same (runOps ops {}) w' := by
  have hi := Inv.reach ops
  have hm' : m < (specOps ops {}).ms.length := by rw [← hi.rel.len]; exact hm
  obtain ⟨a, ha⟩ : ∃ a, (specOps ops {}).ms[m]? = some a := ⟨_, List.getElem?_eq_getElem hm'⟩
  have hk : (specOps ops {}).mean m p = none := by
    cases hk : (specOps ops {}).mean m p with
    | none => rfl
    | some k =>
      rw [mean_eq hi.wf.ms.stable.base_lt ha] at hk
      exact absurd (hi.attached.2 ⟨a, ha, lookMDefs_known hk⟩) h
  obtain ⟨w', hw', h1⟩ := Sim.getM hi.wf.ms hm' p _ hi.rel
  rw [hk] at h1
  exact ⟨w', h1, hi.same ⟨hw', hi.wf⟩⟩

/-- Process 3 of `demo` was created in the posterior, so the prior rejects it. -/
example : ∃ w', getK 0 2 3 (runOps demo {}) = .error .runtime w' ∧ Same (runOps demo {}) w' :=
  C03_kernel demo 0 2 3 (by show 0 < _; exact Nat.lt_of_sub_eq_succ rfl) (.inr demo_not_attached)

/-! ## C04 -/

/-- **C04.** Two programs that differ only in their reads of means and kernels lead to states that no user
can tell apart: same attachments and names, the same means and kernels in every measure, and every further
operation raises in one if and only if it raises in the other. -/
theorem C04_reads_irrelevant (ops ops' : List Op)
    (h : (ops.filter fun o => !o.isRead) = ops'.filter fun o => !o.isRead) :
    Same (runOps ops {}) (runOps ops' {}) ∧
      ∀ o : Op, o.raises (runOps ops {}) = o.raises (runOps ops' {}) := by
  have h1 := Inv.reach ops
  have h2 := Inv.reach ops'
  have he : specOps ops {} = specOps ops' {} := by
    rw [← specOps_reads ops, ← specOps_reads ops', h]
  rw [← he] at h2
  exact ⟨h1.same h2, fun o => by rw [h1.raises, h2.raises]⟩

/-- Inserting reads, also failing ones, into `demo`. -/
example : Same (runOps (demo.take 3 ++ [.getK 0 2 0, .getK 0 0 2, .getM 0 9] ++ demo.drop 3 ++
    [.getK 1 4 3, .getK 0 4 4]) {}) (runOps demo {}) :=
  (C04_reads_irrelevant _ _ (by simp [demo, Op.isRead])).1

/-! ## C05 -/

/-- **C05.** Whatever a program does later, also if it raises, a mean or kernel that was there stays what
it was, processes stay attached, and the measures of a process are only ever added at the end (so its
primary measure never changes). -/
theorem C05_extension (ops later : List Op) (m : MId) (p q : PId) :
    (∀ k, kernelAt (runOps ops {}) m p q = some k →
      kernelAt (runOps (ops ++ later) {}) m p q = some k) ∧
    (∀ f, meanAt (runOps ops {}) m p = some f → meanAt (runOps (ops ++ later) {}) m p = some f) ∧
    (Attached (runOps ops {}) m p → Attached (runOps (ops ++ later) {}) m p) ∧
    (groups (runOps ops {}) p <+: groups (runOps (ops ++ later) {}) p) := by
  have h1 := Inv.reach ops
  obtain ⟨h2, hext⟩ := h1.runOps later
  rw [runOps_append]
  have st := h1.wf.ms.stable
  have st' := h2.wf.ms.stable
  refine ⟨fun k hk => ?_, fun f hf => ?_, fun ha => ?_, ?_⟩
  · rw [h1.kernelAt] at hk; rw [h2.kernelAt]; exact hext.kernel st st' m p q k hk
  · rw [h1.meanAt] at hf; rw [h2.meanAt]; exact hext.mean st st' m p f hf
  · obtain ⟨a, ha, hp⟩ := h1.attached.1 ha
    obtain ⟨a', ha', _⟩ := hext.meas m a ha
    exact h2.attached.2 ⟨a', ha', hext.known ha ha' hp⟩
  · unfold groups
    rw [h1.rel.gps, h2.rel.gps]
    cases hp : (specOps ops {}).gps[p]? with
    | none => exact List.nil_prefix
    | some l =>
      obtain ⟨l', hl'⟩ := hext.gps p l hp
      rw [hl']
      exact List.prefix_append l l'

/-- The kernel of the sum in `demo`, before and after conditioning and differentiating. -/
example : kernelAt (runOps (demo.take 3 ++ demo.drop 3) {}) 0 2 2 =
    kernelAt (runOps (demo.take 3) {}) 0 2 2 := by
  obtain ⟨k, hk⟩ : ∃ k, kernelAt (runOps (demo.take 3) {}) 0 2 2 = some k := ⟨_, rfl⟩
  rw [hk]
  exact (C05_extension (demo.take 3) (demo.drop 3) 0 2 2).1 k hk

/-! ## C16 and C22 -/

/-- Nothing observable about the measures that exist in `w` is different in `w'`. -/
structure MeasuresUntouched (w w' : World) : Prop where
  attached : ∀ m p, HasMeasure w m → (Attached w' m p ↔ Attached w m p)
  kernels : ∀ m p q, HasMeasure w m → kernelAt w' m p q = kernelAt w m p q
  means : ∀ m p, HasMeasure w m → meanAt w' m p = meanAt w m p
  names : ∀ m p, HasMeasure w m → nameAt w' m p = nameAt w m p
  byName : ∀ m n, HasMeasure w m → gpNamed w' m n = gpNamed w m n

theorem untouched_of {w w' : World} {L L' : AWorld} (h : Inv w L) (h' : Inv w' L')
    (heq : ∀ k : MId, k < L.ms.length → L'.ms[k]? = L.ms[k]?) : MeasuresUntouched w w' := by
  have hlt : ∀ m, HasMeasure w m → m < L.ms.length := fun m hm => by rw [← h.rel.len]; exact hm
  have hget : ∀ m, HasMeasure w m → ∃ a, L.ms[m]? = some a ∧ L'.ms[m]? = some a := fun m hm =>
    ⟨_, List.getElem?_eq_getElem (hlt m hm),
      (heq m (hlt m hm)).trans (List.getElem?_eq_getElem (hlt m hm))⟩
  refine ⟨fun m p hm => ?_, fun m p q hm => ?_, fun m p hm => ?_, fun m p hm => ?_, fun m n hm => ?_⟩
  · rw [h.attached, h'.attached, heq m (hlt m hm)]
  · rw [h.kernelAt, h'.kernelAt]
    exact kernel_prefix h.wf.ms.stable h'.wf.ms.stable heq m (hlt m hm) p q
  · rw [h.meanAt, h'.meanAt]
    exact mean_prefix h.wf.ms.stable h'.wf.ms.stable heq m (hlt m hm) p
  · obtain ⟨a, ha, ha'⟩ := hget m hm
    rw [h.nameAt ha, h'.nameAt ha']
  · obtain ⟨a, ha, ha'⟩ := hget m hm
    rw [h.gpNamed ha, h'.gpNamed ha']

/-- **C16.** Conditioning touches no existing measure, neither the prior nor any other, and keeps the
default measure; processes of the prior only gain the posterior as their last measure. -/
theorem C16_condition (ops : List Op) (m : MId) (obs : Obs) (hm : HasMeasure (runOps ops {}) m) :
    let w := runOps ops {}
    let w' := (Op.condition m obs).after w
    MeasuresUntouched w w' ∧ w'.default = w.default ∧ w'.ms.length = w.ms.length + 1 ∧
      ∀ p, (Attached w m p → groups w' p = groups w p ++ [w.ms.length]) ∧
        (¬ Attached w m p → groups w' p = groups w p) := by
  intro w w'
  have hi : Inv w (specOps ops {}) := Inv.reach ops
  have hi' := (hi.after (.condition m obs)).1
  obtain ⟨a, ha⟩ : ∃ a, (specOps ops {}).ms[m]? = some a :=
    ⟨_, List.getElem?_eq_getElem (by rw [← hi.rel.len]; exact hm)⟩
  rw [condition_spec ha] at hi'
  refine ⟨untouched_of hi hi' (fun k hk => cond_ms k hk), ?_, ?_, fun p => ?_⟩
  · rw [hi'.rel.default, hi.rel.default]; rfl
  · rw [hi'.rel.len, hi.rel.len]; simp [AWorld.cond]
  · have hg : (specOps ops {} |>.cond m a obs).gps[p]? =
        if p ∈ a.ps then (specOps ops {}).gps[p]?.map (· ++ [(specOps ops {}).ms.length])
        else (specOps ops {}).gps[p]? := foldl_modify _ _ _ (hi.wf.ms m a ha).nodup p
    have hatt : Attached w m p ↔ p ∈ a.ps := by
      rw [hi.attached]
      constructor
      · rintro ⟨b, hb, hp⟩; rw [ha] at hb; cases hb; exact hp
      · exact fun hp => ⟨a, ha, hp⟩
    unfold groups
    rw [hi'.rel.gps, hi.rel.gps, hg, hi.rel.len]
    rw [hatt]
    refine ⟨fun hp => ?_, fun hp => by rw [if_neg hp]⟩
    rw [if_pos hp]
    obtain ⟨l, hl, _⟩ := hi.wf.mem_gps m a ha p hp
    rw [hl]; rfl

example : kernelAt ((Op.condition 0 (.exact 0 (.num [[1]]) ⟨1, 1, fun _ _ => 0⟩ [3])).after
    (runOps demo {})) 1 2 2 = kernelAt (runOps demo {}) 1 2 2 :=
  (C16_condition demo 0 _ (by show 0 < _; exact Nat.lt_of_sub_eq_succ rfl)).1.kernels 1 2 2
    (by show 1 < _; exact Nat.lt_of_sub_eq_succ rfl)

/-- Specification of `GP.condition`. -/
noncomputable def aGpCondition (p : PId) (obs : Obs) : AM PId := do
  let m ← aPrimary p
  let post ← aCondition m obs
  aCall post p

theorem sim_gpCondition (p : PId) (obs : Obs) :
    SimA (fun _ => True) (gpCondition p obs) (aGpCondition p obs) (fun _ _ _ => True) := by
  refine SimA.bind (sim_primary p) fun L0 m _ => ?_
  refine SimA.bind ((sim_condition m obs).weaken (fun _ _ => trivial) (fun _ _ _ _ _ h => h))
    fun L1 post _ => ?_
  exact (sim_callGP post p).weaken (fun _ _ => trivial) (fun _ _ _ _ _ _ => trivial)

theorem aCall_ms {L : AWorld} {m : MId} {p : PId} (k : MId) (hk : m ≠ k) :
    (stateAfter (aCall m p L)).ms[k]? = L.ms[k]? := by
  have e : aCall m p L = EStateM.bind (aGetMeas m) (fun _ => do
      aDefine m L.gps.length (.copy p)
      pure L.gps.length) { L with gps := L.gps ++ [[]] } := rfl
  rw [e]
  simp only [EStateM.bind, aGetMeas]
  cases L.ms[m]? with
  | none => rfl
  | some a =>
    simp only [Bind.bind, EStateM.bind, aDefine]
    by_cases h : (defMean m (AWorld.mean { L with gps := L.gps ++ [[]] } m) (.copy p)).isSome ∧
      (defKernel m (AWorld.kernel { L with gps := L.gps ++ [[]] } m) (.copy p)).isSome
    · rw [if_pos h]
      show (AWorld.push _ m L.gps.length (.copy p)).ms[k]? = _
      rw [push_ms, if_neg hk]
    · rw [if_neg h]; rfl

theorem aGpCondition_ms {L : AWorld} {p : PId} {obs : Obs} (k : MId) (hk : k < L.ms.length) :
    (stateAfter (aGpCondition p obs L)).ms[k]? = L.ms[k]? := by
  have e : aGpCondition p obs L = EStateM.bind (aPrimary p) (fun m => do
      let post ← aCondition m obs
      aCall post p) L := rfl
  rw [e]
  have hp : aPrimary p L = match L.gps[p]? with
      | none => .error .dangling L
      | some [] => .error .runtime L
      | some (m :: _) => .ok m L := by
    unfold aPrimary
    change EStateM.bind (aMeasuresOf p) _ L = _
    simp only [EStateM.bind, aMeasuresOf]
    cases L.gps[p]? with
    | none => rfl
    | some l => cases l <;> rfl
  simp only [EStateM.bind, hp]
  cases L.gps[p]? with
  | none => rfl
  | some l =>
    cases l with
    | nil => rfl
    | cons m l =>
      simp only [Bind.bind, EStateM.bind, aCondition]
      cases ha : L.ms[m]? with
      | none => rfl
      | some a =>
        simp only
        rw [aCall_ms k (Nat.ne_of_gt hk)]
        exact cond_ms k hk

/-- **C16, `p | observations`.** Conditioning through a process touches no existing measure either, whether
it succeeds or not. -/
theorem C16_gp_condition (ops : List Op) (p : PId) (obs : Obs) :
    MeasuresUntouched (runOps ops {}) (stateAfter (gpCondition p obs (runOps ops {}))) := by
  have hi := Inv.reach ops
  rcases sim_gpCondition p obs _ _ hi.rel hi.wf trivial with
    ⟨v, w1, L', h1, h2, r, wf, ext, _⟩ | ⟨e, w1, L', h1, h2, r, wf, ext⟩
  · rw [h1]
    refine untouched_of hi ⟨r, wf⟩ fun k hk => ?_
    have := aGpCondition_ms (p := p) (obs := obs) k hk
    rw [h2] at this; exact this
  · rw [h1]
    refine untouched_of hi ⟨r, wf⟩ fun k hk => ?_
    have := aGpCondition_ms (p := p) (obs := obs) k hk
    rw [h2] at this; exact this

example : kernelAt (stateAfter (gpCondition 4 (.exact 0 (.num [[1]]) ⟨1, 1, fun _ _ => 0⟩ [3])
    (runOps demo {}))) 1 4 4 = kernelAt (runOps demo {}) 1 4 4 :=
  (C16_gp_condition demo 4 _).kernels 1 4 4 (by show 1 < _; exact Nat.lt_of_sub_eq_succ rfl)

/-- **C22.** Conditioning on observations at zero inputs gives a posterior with exactly the means and
kernels of the prior, for all processes of the prior. -/
theorem C22_empty (ops : List Op) (m : MId) (obs : PId) (x : Input) (noise : Mat) (y : List ℝ)
    (hx : numElements x = 0) (p q : PId) (hp : Attached (runOps ops {}) m p)
    (hq : Attached (runOps ops {}) m q) :
    let w := runOps ops {}
    let w' := (Op.condition m (.exact obs x noise y)).after w
    kernelAt w' w.ms.length p q = kernelAt w m p q ∧ meanAt w' w.ms.length p = meanAt w m p := by
  intro w w'
  have hi : Inv w (specOps ops {}) := Inv.reach ops
  have hi' := (hi.after (.condition m (.exact obs x noise y))).1
  obtain ⟨a, ha, hpa⟩ := hi.attached.1 hp
  obtain ⟨a', ha', hqa⟩ := hi.attached.1 hq
  rw [ha] at ha'; cases ha'
  rw [condition_spec ha] at hi'
  have st := hi.wf.ms.stable
  have st' := hi'.wf.ms.stable
  have hlt := (List.getElem?_eq_some_iff.1 ha).1
  constructor
  · rw [hi'.kernelAt, hi.kernelAt, hi.rel.len, kernel_eq st'.base_lt cond_ms_new]
    simp only [lookKDefs, hpa, hqa, and_self, if_true, AWorld.baseK, obsKernel, hx]
    exact kernel_prefix st st' (fun k hk => cond_ms k hk) m hlt p q
  · rw [hi'.meanAt, hi.meanAt, hi.rel.len, mean_eq st'.base_lt cond_ms_new]
    simp only [lookMDefs, hpa, if_true, AWorld.baseM, obsMean, hx]
    exact mean_prefix st st' (fun k hk => cond_ms k hk) m hlt p

example : kernelAt ((Op.condition 1 (.exact 2 (.tup [.num [], .fdd 3 (.num [])])
    ⟨0, 0, fun _ _ => 0⟩ [])).after (runOps demo {})) 2 2 4 = kernelAt (runOps demo {}) 1 2 4 :=
  (C22_empty demo 1 2 _ _ _ rfl 2 4 demo_attached.1 demo_attached.2.2.1).1

end Stheno
