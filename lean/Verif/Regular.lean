import Verif.Off
import Verif.Everywhere

/-!
# Programs in which all calls return

The programs for which properties are stated in terms of the results of calls only: every call of a mean or kernel
of a single-output process at numeric inputs returns, and the results are the expectations and covariances of
random variables that satisfy the equations of the program.
-/

namespace Stheno

open Matrix

/-- Programs of elementary operations in which all calls at numeric inputs return, at rows in the domains `G`. -/
structure Regular (G : Dom) (ops : List Op) : Prop extends Returning G ops

/-- A condition that is easy to check: the noise of observations is positive definite. -/
theorem Regular.of_noisy {G : Dom} {ops : List Op} (ht : Tame G ops) (hn : Noisy ops) (hi : Inducing ops) : Regular G ops :=
  ⟨ht.returning hn hi⟩

/-- As `Regular.of_noisy`, where all processes but those in `C` can be called at all rows. -/
theorem Regular.of_noisy_off {C : PId → Prop} {ops : List Op} (ht : TameOff C ops) (hn : Noisy ops) (hi : Inducing ops) :
    Regular (off C) ops := .of_noisy ht.tame hn hi

section
variable {G : Dom} {ops : List Op} {m : MId} {p q r : PId} {x y : Input} {xs ys : List Pt}

/-- The random variables. -/
noncomputable abbrev reading (ops : List Op) : Interp RV := canon (specOps ops {})

theorem Regular.reads (h : Regular G ops) : (reading ops).Reads ops := h.toTame.reads

theorem Regular.value (h : Regular G ops) (hp : Attached (runOps ops {}) m p) (hx : Rows (G p) xs) :
    ∃ vs, (reading ops).F m p (.num xs) = some vs ∧ vs.length = xs.length := by
  obtain ⟨a, ha, hpa⟩ := (Inv.reach ops).attached.1 hp
  exact h.state.values (elem_reach h.elem) m a ha p hpa xs hx

/-- What a call of a mean returns. -/
theorem Regular.mean_eq (h : Regular G ops) (hp : Attached (runOps ops {}) m p) (hx : Rows (G p) xs) {v : List ℝ} {vs : List RV}
    (hv : MeanCall (runOps ops {}) m p (.num xs) v) (hF : (reading ops).F m p (.num xs) = some vs) :
    v = vs.map ((reading ops).S m).E := by
  obtain ⟨v', hv', lv⟩ := h.mean hp hx
  rw [hv.unique hv'] at *
  obtain ⟨vs', hF'', lF⟩ := h.value hp hx
  rw [hF] at hF''; cases hF''
  exact (h.reads.mean hv' hF).2 (lv.trans lF.symm)

/-- What a call of a kernel returns. -/
theorem Regular.kernel_eq (h : Regular G ops) (hp : Attached (runOps ops {}) m p)
    (hq : Attached (runOps ops {}) m q) (hx : Rows (G p) xs) (hy : Rows (G q) ys) {A : Mat} {vs ws : List RV}
    (hA : KernelCall (runOps ops {}) m p q (.num xs) (.num ys) A) (hF : (reading ops).F m p (.num xs) = some vs)
    (hF' : (reading ops).F m q (.num ys) = some ws) : A.Eqv (covMat ((reading ops).S m) vs ws) := by
  obtain ⟨A', hA', rA, cA⟩ := h.kernel hp hq hx hy
  rw [hA.unique hA'] at *
  obtain ⟨vs', hF'', lF⟩ := h.value hp hx
  rw [hF] at hF''; cases hF''
  obtain ⟨ws', hG', lG⟩ := h.value hq hy
  rw [hF'] at hG'; cases hG'
  have hf := h.reads.kernel hA' hF hF'
  exact ⟨rA.trans lF.symm, cA.trans lG.symm, hf.e (rA.trans lF.symm) (cA.trans lG.symm)⟩

/-- What an elementwise call of a kernel returns. -/
theorem Regular.elwise_eq (h : Regular G ops) (hp : Attached (runOps ops {}) m p)
    (hq : Attached (runOps ops {}) m q) (hx : Rows (G p) xs) (hy : Rows (G q) ys) (hxy : xs.length = ys.length) {u : List ℝ} {vs ws : List RV}
    (hu : ElwiseCall (runOps ops {}) m p q (.num xs) (.num ys) u) (hF : (reading ops).F m p (.num xs) = some vs)
    (hF' : (reading ops).F m q (.num ys) = some ws) : u = List.zipWith (fun v w => ((reading ops).S m).C v w) vs ws := by
  obtain ⟨u', hu', lu⟩ := h.elwise hp hq hx hy hxy
  rw [hu.unique hu'] at *
  obtain ⟨vs', hF'', lF⟩ := h.value hp hx
  rw [hF] at hF''; cases hF''
  obtain ⟨ws', hG', lG⟩ := h.value hq hy
  rw [hF'] at hG'; cases hG'
  have hf := h.reads.elwise hu' hF hF'
  refine List.ext_getElem (by simp [lu, lF, lG, hxy]) fun i h1 h2 => ?_
  have hi : i < vs.length := by rw [lF, ← lu]; exact h1
  have hi' : i < ws.length := by rw [lG, ← hxy, ← lF]; exact hi
  have := hf.e (lu.trans lF.symm) (lu.trans (hxy.trans lG.symm)) i hi
  rw [List.getElem?_eq_getElem h1, Option.some.injEq] at this
  rw [this]
  simp [covMat, hi, hi']

/-- A process that an operation made has a definition whose calls return. -/
theorem Regular.def_total (h : Regular G ops) {before : List Op} {o : Op} {d : ProcDef} (hm : Makes ops before o r d)
    (cr : Live G r) : d.Total G (G r) := by
  obtain ⟨after, e⟩ := hm.split
  refine h.defs before o after e 0 (r, d) ?_ cr
  rw [Op.makes_written hm.makes, hm.id]
  simp

/-- Kernels of observed processes return. -/
theorem Regular.observed_calls (h : Regular G ops) {before after : List Op} {z : Input} (e : ops = before ++ after)
    (hm : HasMeasure (runOps before {}) m) (hs : Observable G before m p z) :
    (∃ v, MeanCall (runOps ops {}) m p z v ∧ v.length = numElements z) ∧
    (∃ A, KernelCall (runOps ops {}) m p p z z A ∧ A.r = numElements z ∧ A.c = numElements z) ∧
    ∃ u, ElwiseCall (runOps ops {}) m p p z z u ∧ u.length = numElements z := by
  obtain ⟨b, hb⟩ : ∃ b, (specOps ops {}).ms[m]? = some b := by
    have : m < (specOps before {}).ms.length := by rw [← (Inv.reach before).rel.len]; exact hm
    obtain ⟨a', ha', _⟩ := ops_grow before after (List.getElem?_eq_getElem this)
    exact ⟨a', by rw [e]; exact ha'⟩
  have hb' := hb
  rw [e] at hb'
  obtain ⟨em, ek⟩ := lookups_reach ops
  obtain ⟨⟨a, ha, ta⟩, ⟨k, hk, tk, td⟩, -⟩ := (seen_of hb' hs).get h.state hb (h.state.returns h.pds m b hb)
  obtain ⟨v, ⟨n1, hv⟩, lv⟩ := ta.run rfl
  obtain ⟨A, ⟨n2, hA⟩, rA, cA⟩ := tk.run rfl rfl
  obtain ⟨u, ⟨n3, hu⟩, lu⟩ := td.run rfl rfl rfl
  exact ⟨⟨v, ⟨a, n1, by rw [em]; exact ha, by rw [em, ek]; exact hv⟩, lv⟩,
    ⟨A, ⟨k, n2, by rw [ek]; exact hk, by rw [em, ek]; exact hA⟩, rA, cA⟩,
    ⟨u, ⟨k, n3, by rw [ek]; exact hk, by rw [em, ek]; exact hu⟩, lu⟩⟩

/-- Kernels between observed processes return. -/
theorem Regular.observed_pair (h : Regular G ops) {before after : List Op} {z x : Input} (e : ops = before ++ after)
    (hm : HasMeasure (runOps before {}) m) (hp : Observable G before m p z) (hq : Observable G before m q x) :
    ∃ A, KernelCall (runOps ops {}) m p q z x A ∧ A.r = numElements z ∧ A.c = numElements x := by
  obtain ⟨a0, ha0⟩ : ∃ a0, (specOps before {}).ms[m]? = some a0 := by
    have : m < (specOps before {}).ms.length := by rw [← (Inv.reach before).rel.len]; exact hm
    exact ⟨_, List.getElem?_eq_getElem this⟩
  obtain ⟨b, hb', _, h2', t', h3'⟩ := ops_grow before after ha0
  have hb := hb'
  rw [← e] at hb
  have hsub : ∀ i ∈ members (runOps before {}) m, i ∈ b.ps := by
    intro i hi
    obtain ⟨a, ha, hia⟩ := (Inv.reach before).attached.1 (mem_members.1 hi)
    rw [ha0] at ha; cases ha
    rw [AMeas.ps, mem_knownOf] at hia ⊢
    rw [h2', ← h3']
    exact hia.imp id fun h => by simp only [List.map_append, List.mem_append]; exact .inr h
  obtain ⟨em, ek⟩ := lookups_reach ops
  obtain ⟨k, hk, tk⟩ := (seen_of hb' hp).pair h.state hb (h.state.returns h.pds m b hb) hsub (seen_of hb' hq)
  obtain ⟨A, ⟨n, hA⟩, rA, cA⟩ := tk.run rfl rfl
  exact ⟨A, ⟨k, n, by rw [ek]; exact hk, by rw [em, ek]; exact hA⟩, rA, cA⟩

/-- Observed values. -/
theorem Regular.observed_value (h : Regular G ops) {before after : List Op} {z : Input} (e : ops = before ++ after)
    (hm : HasMeasure (runOps before {}) m) (hs : Observable G before m p z) :
    ∃ vs, (reading ops).F m p z = some vs ∧ vs.length = numElements z := by
  obtain ⟨b, hb⟩ : ∃ b, (specOps ops {}).ms[m]? = some b := by
    have : m < (specOps before {}).ms.length := by rw [← (Inv.reach before).rel.len]; exact hm
    obtain ⟨a', ha', _⟩ := ops_grow before after (List.getElem?_eq_getElem this)
    exact ⟨a', by rw [e]; exact ha'⟩
  have hb' := hb
  rw [e] at hb'
  exact h.state.seen (elem_reach h.elem) hb (seen_of hb' hs)

/-- Calls of cross processes at FDDs of their components return. -/
theorem Regular.cross_calls (h : Regular G ops) {before : List Op} {qs : List PId} {ord : List MId} {z : Input}
    (hm : Makes ops before (.cross qs ord) r (.cross qs)) (hr : Attached (runOps (before ++ [.cross qs ord]) {}) m r)
    (hz : TupOf G qs z) :
    (∃ v vs, MeanCall (runOps ops {}) m r z v ∧ (reading ops).F m r z = some vs ∧
      v = vs.map ((reading ops).S m).E ∧ vs.length = numElements z) ∧
    (∃ A vs, KernelCall (runOps ops {}) m r r z z A ∧ (reading ops).F m r z = some vs ∧
      A.Eqv (covMat ((reading ops).S m) vs vs)) ∧
    ∀ i ∈ members (runOps before {}) m, ∀ xs, Rows (G i) xs → ∃ A vs ws, KernelCall (runOps ops {}) m r i z (.num xs) A ∧
      (reading ops).F m r z = some vs ∧ (reading ops).F m i (.num xs) = some ws ∧
      A.Eqv (covMat ((reading ops).S m) vs ws) := by
  obtain ⟨after, e⟩ := hm.split
  obtain ⟨em, ek⟩ := lookups_reach ops
  have hin : ∀ i ∈ members (runOps before {}) m, Attached (runOps ops {}) m i := by
    intro i hi
    obtain ⟨b, hb, hib⟩ := (Inv.reach before).attached.1 (mem_members.1 hi)
    obtain ⟨b', hb', _, hbp, t, ht⟩ := ops_grow before (.cross qs ord :: after) hb
    rw [← e] at hb'
    refine (Inv.reach ops).attached.2 ⟨b', hb', ?_⟩
    rw [AMeas.ps, mem_knownOf] at hib ⊢
    rw [hbp, ← ht]
    exact hib.imp id fun h => by simp only [List.map_append, List.mem_append]; exact .inr h
  obtain ⟨b, hb, _⟩ := (Inv.reach (before ++ [.cross qs ord])).attached.1 hr
  obtain ⟨b', hb', _⟩ := ops_grow _ after hb
  have hseen : AWorld.Seen G b' (members (runOps before {}) m) r z := by
    refine .inr ?_
    obtain ⟨a', es, es', ha', hd, hk⟩ := written_attached (before := before) (o := .cross qs ord) (m := m) (older := [])
      (r := r) (d := .cross qs) (younger := []) (by rw [hm.id]; rfl) hr
    obtain ⟨b2, hb2, _, hbp, t, ht⟩ := ops_grow _ after ha'
    rw [hb'] at hb2; cases hb2
    refine ⟨t ++ es, es', qs, by rw [← ht, hd]; simp, hz, fun q hq => ?_, fun i hi _ => ?_⟩
    · have := scoped_refs ((Inv.reach (before ++ [.cross qs ord])).wf.ms m a' ha').inScope hd q (by simpa [ProcDef.refs] using hq)
      rw [hk] at this
      simpa using this
    · rw [hbp, hk]
      simpa using hi
  have eo : before ++ [Op.cross qs ord] ++ after = ops := by rw [e]; simp
  rw [eo] at hb'
  obtain ⟨⟨me, hme, tm⟩, ⟨k, hk, tk, -⟩, hi⟩ := hseen.get h.state hb' (h.state.returns h.pds m b' hb')
  obtain ⟨vs, hF, lF⟩ := h.state.seen (elem_reach h.elem) hb' hseen
  refine ⟨?_, ?_, fun i him xs hx => ?_⟩
  · obtain ⟨v, ⟨n, hv⟩, lv⟩ := tm.run rfl
    have hc : MeanCall (runOps ops {}) m r z v := ⟨me, n, by rw [em]; exact hme, by rw [em, ek]; exact hv⟩
    exact ⟨v, vs, hc, hF, (h.reads.mean hc hF).2 (lv.trans lF.symm), lF⟩
  · obtain ⟨A, ⟨n, hA⟩, rA, cA⟩ := tk.run rfl rfl
    have hc : KernelCall (runOps ops {}) m r r z z A := ⟨k, n, by rw [ek]; exact hk, by rw [em, ek]; exact hA⟩
    have hf := h.reads.kernel hc hF hF
    exact ⟨A, vs, hc, hF, rA.trans lF.symm, cA.trans lF.symm, hf.e (rA.trans lF.symm) (cA.trans lF.symm)⟩
  · obtain ⟨b2, hb2, hib⟩ := (Inv.reach ops).attached.1 (hin i him)
    rw [hb'] at hb2; cases hb2
    obtain ⟨k, hk, tk⟩ := (hi i him hib hx.1).1
    obtain ⟨A, ⟨n, hA⟩, rA, cA⟩ := tk.run rfl ⟨xs, rfl, hx⟩
    have hc : KernelCall (runOps ops {}) m r i z (.num xs) A := ⟨k, n, by rw [ek]; exact hk, by rw [em, ek]; exact hA⟩
    obtain ⟨ws, hG, lG⟩ := h.value (hin i him) hx
    have hf := h.reads.kernel hc hF hG
    exact ⟨A, vs, ws, hc, hF, hG, rA.trans lF.symm, cA.trans lG.symm, hf.e (rA.trans lF.symm) (cA.trans lG.symm)⟩

end

end Stheno
