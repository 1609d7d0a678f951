import Verif.RefineOps
import Verif.Api
import Mathlib.Data.List.Induction

/-!
# Consequences of refinement

Lemmas that connect the observers of `Verif/Api.lean` with the specification machine, totality of
lookups, and frame properties of operations.
-/

namespace Stheno

theorem Inv.reach (ops : List Op) : Inv (Stheno.runOps ops {}) (specOps ops {}) :=
  (inv_empty.runOps ops).1

section Observers
variable {w : World} {L : AWorld}

theorem kernel_none {m : MId} (h : ¬ m < L.ms.length) (i j : PId) : L.kernel m i j = none := by
  simp [AWorld.kernel, specKAux, List.getElem?_eq_none (Nat.le_of_not_lt h)]

theorem mean_none {m : MId} (h : ¬ m < L.ms.length) (i : PId) : L.mean m i = none := by
  simp [AWorld.mean, specMAux, List.getElem?_eq_none (Nat.le_of_not_lt h)]

theorem getKAux_dangling {w : World} {m : MId} (h : w.ms[m]? = none) (n : ℕ) (i j : PId) :
    getKAux (n + 1) m i j w = .error .dangling w := by
  unfold getKAux
  change EStateM.bind (getMeas m) _ w = _
  simp only [EStateM.bind, getMeas, h]

theorem getMAux_dangling {w : World} {m : MId} (h : w.ms[m]? = none) (n : ℕ) (i : PId) :
    getMAux (n + 1) m i w = .error .dangling w := by
  unfold getMAux
  change EStateM.bind (getMeas m) _ w = _
  simp only [EStateM.bind, getMeas, h]

theorem Inv.kernelAt (h : Inv w L) (m : MId) (i j : PId) : kernelAt w m i j = L.kernel m i j := by
  unfold Stheno.kernelAt
  by_cases hm : m < L.ms.length
  · obtain ⟨w', _, hw'⟩ := Sim.getK h.wf.ms hm i j w h.rel
    rw [hw']
    cases L.kernel m i j <;> rfl
  · rw [kernel_none hm]
    have hn : w.ms[m]? = none := List.getElem?_eq_none (by rw [h.rel.len]; exact Nat.le_of_not_lt hm)
    have : Stheno.getK m i j w = .error .dangling w := getKAux_dangling hn _ i j
    rw [this]

theorem Inv.meanAt (h : Inv w L) (m : MId) (i : PId) : meanAt w m i = L.mean m i := by
  unfold Stheno.meanAt
  by_cases hm : m < L.ms.length
  · obtain ⟨w', _, hw'⟩ := Sim.getM h.wf.ms hm i w h.rel
    rw [hw']
    cases L.mean m i <;> rfl
  · rw [mean_none hm]
    have hn : w.ms[m]? = none := List.getElem?_eq_none (by rw [h.rel.len]; exact Nat.le_of_not_lt hm)
    have : Stheno.getM m i w = .error .dangling w := getMAux_dangling hn _ i
    rw [this]

theorem Inv.attached (h : Inv w L) {m : MId} {p : PId} :
    Attached w m p ↔ ∃ a, L.ms[m]? = some a ∧ p ∈ a.ps := by
  constructor
  · rintro ⟨s, hs, hp⟩
    have hlt := (List.getElem?_eq_some_iff.1 hs).1
    have ha : L.ms[m]? = some (L.ms[m]'(by rw [← h.rel.len]; exact hlt)) :=
      List.getElem?_eq_getElem _
    exact ⟨_, ha, by rw [← (h.rel.meas m s _ hs ha).ps]; exact hp⟩
  · rintro ⟨a, ha, hp⟩
    obtain ⟨s, hs, hr, _⟩ := h.rel.get ha
    exact ⟨s, hs, by rw [hr.ps]; exact hp⟩

theorem Inv.get (h : Inv w L) {m : MId} {s : MState} (hs : w.ms[m]? = some s) :
    ∃ a, L.ms[m]? = some a ∧ RelM L m s a := by
  have hlt := (List.getElem?_eq_some_iff.1 hs).1
  have ha : L.ms[m]? = some (L.ms[m]'(by rw [← h.rel.len]; exact hlt)) := List.getElem?_eq_getElem _
  exact ⟨_, ha, h.rel.meas m s _ hs ha⟩

/-- Heaps that represent the same state cannot be told apart. -/
theorem Inv.same {w' : World} (h : Inv w L) (h' : Inv w' L) : Same w w' := by
  refine ⟨by rw [h.rel.len, h'.rel.len], by rw [h.rel.gps, h'.rel.gps],
    by rw [h.rel.default, h'.rel.default], ?_, ?_, ?_⟩
  · intro m s s' hs hs'
    obtain ⟨a, ha, hr⟩ := h.get hs
    have hr' := h'.rel.meas m s' a hs' ha
    exact ⟨by rw [hr.ps, hr'.ps], by rw [hr.pids, hr'.pids], by rw [hr.gpsByName, hr'.gpsByName],
      by rw [hr.namesByGp, hr'.namesByGp], by rw [hr.prevDefault, hr'.prevDefault],
      by rw [hr.krules, hr'.krules], by rw [hr.left, hr'.left], by rw [hr.right, hr'.right],
      by rw [hr.mrules, hr'.mrules]⟩
  · intro m p q; rw [h.kernelAt, h'.kernelAt]
  · intro m p; rw [h.meanAt, h'.meanAt]

/-- The exception of an operation is determined by the state of the specification machine. -/
theorem Inv.raises (h : Inv w L) (o : Op) : o.raises w = match o.spec L with
    | .ok _ _ => none
    | .error e _ => some e := by
  unfold Op.raises
  rcases sim_op o w L h.rel h.wf trivial with ⟨v, w', L', h1, h2, _⟩ | ⟨e, w', L', h1, h2, _⟩
  · rw [h1, h2]
  · rw [h1, h2]

end Observers

theorem spec_read {o : Op} (h : o.isRead = true) (L : AWorld) : o.specAfter L = L := by
  unfold Op.specAfter
  cases o with
  | getM m p =>
    simp only [Op.spec, Bind.bind, EStateM.bind, aGetM]
    by_cases hm : m < L.ms.length
    · rw [if_pos hm]; cases L.mean m p <;> rfl
    · rw [if_neg hm]
  | getK m p q =>
    simp only [Op.spec, Bind.bind, EStateM.bind, aGetK]
    by_cases hm : m < L.ms.length
    · rw [if_pos hm]; cases L.kernel m p q <;> rfl
    · rw [if_neg hm]
  | _ => simp [Op.isRead] at h

theorem specOps_append (ops ops' : List Op) (L : AWorld) :
    specOps (ops ++ ops') L = specOps ops' (specOps ops L) := by
  simp [specOps]

theorem runOps_append (ops ops' : List Op) (w : World) :
    runOps (ops ++ ops') w = runOps ops' (runOps ops w) := by
  simp [runOps]

theorem specOps_reads (ops : List Op) (L : AWorld) :
    specOps (ops.filter fun o => !o.isRead) L = specOps ops L := by
  induction ops generalizing L with
  | nil => rfl
  | cons o ops ih =>
    cases hr : o.isRead with
    | true =>
      rw [List.filter_cons_of_neg (by simp [hr]), ih]
      show _ = specOps ops (o.specAfter L)
      rw [spec_read hr]
    | false =>
      rw [List.filter_cons_of_pos (by simp [hr])]
      exact ih (o.specAfter L)

/-! ## Totality -/

theorem runL_isSome {lk : PId → PId → Option KExpr} {j : PId} : (l : LRule) →
    (∀ q ∈ l.refs, (lk q j).isSome ∧ (lk j q).isSome) → (runL lk j l).isSome
  | .zero, _ => rfl
  | .const _, _ => rfl
  | .fn _, _ => rfl
  | .map2 f a b, h => by
    have ha := runL_isSome a fun q hq => h q (by simp [LRule.refs, hq])
    have hb := runL_isSome b fun q hq => h q (by simp [LRule.refs, hq])
    obtain ⟨x, hx⟩ := Option.isSome_iff_exists.1 ha
    obtain ⟨y, hy⟩ := Option.isSome_iff_exists.1 hb
    simp [runL, hx, hy]
  | .cross _ _, _ => rfl
  | .look p, h => (h p (by simp [LRule.refs])).1
  | .lookR p, h => (h p (by simp [LRule.refs])).2
  | .add a b, h => by
    have ha := runL_isSome a fun q hq => h q (by simp [LRule.refs, hq])
    have hb := runL_isSome b fun q hq => h q (by simp [LRule.refs, hq])
    obtain ⟨x, hx⟩ := Option.isSome_iff_exists.1 ha
    obtain ⟨y, hy⟩ := Option.isSome_iff_exists.1 hb
    simp [runL, hx, hy]
  | .scale c a, h => by
    obtain ⟨x, hx⟩ := Option.isSome_iff_exists.1 (runL_isSome a fun q hq => h q hq)
    simp [runL, hx]
  | .tmul f g a, h => by
    obtain ⟨x, hx⟩ := Option.isSome_iff_exists.1 (runL_isSome a fun q hq => h q hq)
    simp [runL, hx]
  | .pre t u a, h => by
    obtain ⟨x, hx⟩ := Option.isSome_iff_exists.1 (runL_isSome a fun q hq => h q hq)
    simp [runL, hx]
  | .diff d e a, h => by
    obtain ⟨x, hx⟩ := Option.isSome_iff_exists.1 (runL_isSome a fun q hq => h q hq)
    simp [runL, hx]

theorem defLeft_isSome {m : MId} {lk : PId → PId → Option KExpr} {j : PId} (d : ProcDef)
    (h : ∀ q ∈ d.refs, (lk q j).isSome ∧ (lk j q).isSome) : (defLeft m lk j d).isSome := by
  rw [← runL_lrule]
  exact runL_isSome _ fun q hq => h q (refs_lrule hq)

theorem defRight_isSome {m : MId} {lk : PId → PId → Option KExpr} {i : PId} (d : ProcDef)
    (h : ∀ q ∈ d.refs, (lk q i).isSome ∧ (lk i q).isSome) : (defRight m lk i d).isSome := by
  have hl := defLeft_isSome (m := m) d h
  obtain ⟨x, hx⟩ := Option.isSome_iff_exists.1 hl
  cases d <;> simp only [defRight, hx, Option.isSome_some] <;> try rfl
  exact (h _ (by simp [ProcDef.refs])).2

theorem defKernel_isSome {m : MId} {lk : PId → PId → Option KExpr} (d : ProcDef)
    (h : ∀ q ∈ d.refs, ∀ r ∈ d.refs, (lk q r).isSome) : (defKernel m lk d).isSome := by
  cases d with
  | sum p q =>
    obtain ⟨a, ha⟩ := Option.isSome_iff_exists.1 (h p (by simp [ProcDef.refs]) p (by simp [ProcDef.refs]))
    obtain ⟨b, hb⟩ := Option.isSome_iff_exists.1 (h p (by simp [ProcDef.refs]) q (by simp [ProcDef.refs]))
    obtain ⟨c, hc⟩ := Option.isSome_iff_exists.1 (h q (by simp [ProcDef.refs]) p (by simp [ProcDef.refs]))
    obtain ⟨d, hd⟩ := Option.isSome_iff_exists.1 (h q (by simp [ProcDef.refs]) q (by simp [ProcDef.refs]))
    simp [defKernel, ha, hb, hc, hd]
  | rem p q =>
    obtain ⟨a, ha⟩ := Option.isSome_iff_exists.1 (h p (by simp [ProcDef.refs]) p (by simp [ProcDef.refs]))
    obtain ⟨b, hb⟩ := Option.isSome_iff_exists.1 (h p (by simp [ProcDef.refs]) q (by simp [ProcDef.refs]))
    obtain ⟨c, hc⟩ := Option.isSome_iff_exists.1 (h q (by simp [ProcDef.refs]) p (by simp [ProcDef.refs]))
    obtain ⟨d, hd⟩ := Option.isSome_iff_exists.1 (h q (by simp [ProcDef.refs]) q (by simp [ProcDef.refs]))
    simp [defKernel, ha, hb, hc, hd]
  | indep _ _ => rfl
  | cross _ => rfl
  | custom _ _ _ => rfl
  | addFn p f => exact h p (by simp [ProcDef.refs]) p (by simp [ProcDef.refs])
  | copy p => exact h p (by simp [ProcDef.refs]) p (by simp [ProcDef.refs])
  | scale p c =>
    obtain ⟨a, ha⟩ := Option.isSome_iff_exists.1 (h p (by simp [ProcDef.refs]) p (by simp [ProcDef.refs]))
    simp [defKernel, ha]
  | fmul p c =>
    obtain ⟨a, ha⟩ := Option.isSome_iff_exists.1 (h p (by simp [ProcDef.refs]) p (by simp [ProcDef.refs]))
    simp [defKernel, ha]
  | pre p c =>
    obtain ⟨a, ha⟩ := Option.isSome_iff_exists.1 (h p (by simp [ProcDef.refs]) p (by simp [ProcDef.refs]))
    simp [defKernel, ha]
  | diff p c =>
    obtain ⟨a, ha⟩ := Option.isSome_iff_exists.1 (h p (by simp [ProcDef.refs]) p (by simp [ProcDef.refs]))
    simp [defKernel, ha]

theorem defMean_isSome {m : MId} {lm : PId → Option MExpr} (d : ProcDef)
    (h : ∀ q ∈ d.refs, (lm q).isSome) : (defMean m lm d).isSome := by
  cases d with
  | sum p q =>
    obtain ⟨a, ha⟩ := Option.isSome_iff_exists.1 (h p (by simp [ProcDef.refs]))
    obtain ⟨b, hb⟩ := Option.isSome_iff_exists.1 (h q (by simp [ProcDef.refs]))
    simp [defMean, ha, hb]
  | rem p q =>
    obtain ⟨a, ha⟩ := Option.isSome_iff_exists.1 (h p (by simp [ProcDef.refs]))
    obtain ⟨b, hb⟩ := Option.isSome_iff_exists.1 (h q (by simp [ProcDef.refs]))
    simp [defMean, ha, hb]
  | indep _ _ => rfl
  | cross _ => rfl
  | custom _ _ _ => rfl
  | copy p => exact h p (by simp [ProcDef.refs])
  | addFn p f =>
    obtain ⟨a, ha⟩ := Option.isSome_iff_exists.1 (h p (by simp [ProcDef.refs]))
    simp [defMean, ha]
  | scale p c =>
    obtain ⟨a, ha⟩ := Option.isSome_iff_exists.1 (h p (by simp [ProcDef.refs]))
    simp [defMean, ha]
  | fmul p c =>
    obtain ⟨a, ha⟩ := Option.isSome_iff_exists.1 (h p (by simp [ProcDef.refs]))
    simp [defMean, ha]
  | pre p c =>
    obtain ⟨a, ha⟩ := Option.isSome_iff_exists.1 (h p (by simp [ProcDef.refs]))
    simp [defMean, ha]
  | diff p c =>
    obtain ⟨a, ha⟩ := Option.isSome_iff_exists.1 (h p (by simp [ProcDef.refs]))
    simp [defMean, ha]

theorem lookKDefs_isSome {m : MId} {base : PId → PId → Option KExpr} {bp : List PId}
    (hb : ∀ i ∈ bp, ∀ j ∈ bp, (base i j).isSome) :
    (es : List (PId × ProcDef)) → Scoped bp es → ∀ i ∈ knownOf bp es, ∀ j ∈ knownOf bp es,
      (lookKDefs m base bp es i j).isSome
  | [], _, i, hi, j, hj => by
    simp only [knownOf, List.map_nil, List.reverse_nil, List.append_nil] at hi hj
    simp only [lookKDefs, hi, hj, and_self, if_true]
    exact hb i hi j hj
  | (p, d) :: es, hs, i, hi, j, hj => by
    obtain ⟨hr, hs'⟩ := hs
    have ih := lookKDefs_isSome (m := m) hb es hs'
    simp only [knownOf_cons, List.mem_append, List.mem_singleton] at hi hj
    simp only [lookKDefs]
    by_cases hip : i = p
    · simp only [hip, if_true]
      by_cases hjp : j = p
      · simp only [hjp, if_true]
        exact defKernel_isSome d fun q hq r hr' => ih q (hr q hq) r (hr r hr')
      · have hj' : j ∈ knownOf bp es := hj.resolve_right hjp
        simp only [hjp, if_false, hj', if_true]
        exact defLeft_isSome d fun q hq => ⟨ih q (hr q hq) j hj', ih j hj' q (hr q hq)⟩
    · have hi' : i ∈ knownOf bp es := hi.resolve_right hip
      simp only [hip, if_false]
      by_cases hjp : j = p
      · simp only [hjp, if_true, hi']
        exact defRight_isSome d fun q hq => ⟨ih q (hr q hq) i hi', ih i hi' q (hr q hq)⟩
      · simp only [hjp, if_false]
        exact ih i hi' j (hj.resolve_right hjp)

theorem lookMDefs_isSome {m : MId} {base : PId → Option MExpr} {bp : List PId}
    (hb : ∀ i ∈ bp, (base i).isSome) :
    (es : List (PId × ProcDef)) → Scoped bp es → ∀ i ∈ knownOf bp es,
      (lookMDefs m base bp es i).isSome
  | [], _, i, hi => by
    simp only [knownOf, List.map_nil, List.reverse_nil, List.append_nil] at hi
    simp only [lookMDefs, hi, if_true]
    exact hb i hi
  | (p, d) :: es, hs, i, hi => by
    obtain ⟨hr, hs'⟩ := hs
    have ih := lookMDefs_isSome (m := m) hb es hs'
    simp only [knownOf_cons, List.mem_append, List.mem_singleton] at hi
    simp only [lookMDefs]
    by_cases hip : i = p
    · simp only [hip, if_true]
      exact defMean_isSome d fun q hq => ih q (hr q hq)
    · simp only [hip, if_false]
      exact ih i (hi.resolve_right hip)

theorem obsKernel_isSome {lk : PId → PId → Option KExpr} {o : Obs} {P : PId → Prop}
    (h : ∀ i j, P i → P j → (lk i j).isSome) (hn : o.noiseOK) (ho : ∀ p ∈ o.refs, P p) {i j : PId}
    (hi : P i) (hj : P j) : (obsKernel lk none o i j).isSome := by
  cases o with
  | exact p x noise y =>
    have hp : P p := ho p (by simp [Obs.refs])
    obtain ⟨a, ha⟩ := Option.isSome_iff_exists.1 (h i j hi hj)
    obtain ⟨b, hb⟩ := Option.isSome_iff_exists.1 (h p i hp hi)
    obtain ⟨c, hc⟩ := Option.isSome_iff_exists.1 (h p j hp hj)
    obtain ⟨d, hd⟩ := Option.isSome_iff_exists.1 (h p p hp hp)
    simp only [obsKernel]
    split
    · rw [ha]; rfl
    · simp [ha, hb, hc, hd]
  | pseudo pu p o =>
    have hu : P pu := ho pu (by simp [Obs.refs])
    have hp : P p := ho p (by simp [Obs.refs])
    obtain ⟨a, ha⟩ := Option.isSome_iff_exists.1 (h i j hi hj)
    obtain ⟨b, hb⟩ := Option.isSome_iff_exists.1 (h pu i hu hi)
    obtain ⟨c, hc⟩ := Option.isSome_iff_exists.1 (h pu j hu hj)
    obtain ⟨d, hd⟩ := Option.isSome_iff_exists.1 (h pu p hu hp)
    obtain ⟨e, he⟩ := Option.isSome_iff_exists.1 (h pu pu hu hu)
    obtain ⟨f, hf⟩ := Option.isSome_iff_exists.1 (h p p hp hp)
    have hd' : o.noiseX.isDiagonal = true := hn
    simp [obsKernel, ha, hb, hc, hd, he, hf, hd']

theorem obsMean_isSome {lm : PId → Option MExpr} {lk : PId → PId → Option KExpr} {o : Obs}
    {P : PId → Prop} (h : ∀ i j, P i → P j → (lk i j).isSome) (hm : ∀ i, P i → (lm i).isSome)
    (hn : o.noiseOK) (ho : ∀ p ∈ o.refs, P p) {i : PId} (hi : P i) :
    (obsMean lm lk none o i).isSome := by
  cases o with
  | exact p x noise y =>
    have hp : P p := ho p (by simp [Obs.refs])
    obtain ⟨a, ha⟩ := Option.isSome_iff_exists.1 (hm i hi)
    obtain ⟨a', ha'⟩ := Option.isSome_iff_exists.1 (hm p hp)
    obtain ⟨b, hb⟩ := Option.isSome_iff_exists.1 (h p i hp hi)
    obtain ⟨d, hd⟩ := Option.isSome_iff_exists.1 (h p p hp hp)
    simp only [obsMean]
    split
    · rw [ha]; rfl
    · simp [ha, ha', hb, hd]
  | pseudo pu p o =>
    have hu : P pu := ho pu (by simp [Obs.refs])
    have hp : P p := ho p (by simp [Obs.refs])
    obtain ⟨a, ha⟩ := Option.isSome_iff_exists.1 (hm i hi)
    obtain ⟨a', ha'⟩ := Option.isSome_iff_exists.1 (hm pu hu)
    obtain ⟨c, hc⟩ := Option.isSome_iff_exists.1 (hm p hp)
    obtain ⟨b, hb⟩ := Option.isSome_iff_exists.1 (h pu i hu hi)
    obtain ⟨d, hd⟩ := Option.isSome_iff_exists.1 (h pu p hu hp)
    obtain ⟨e, he⟩ := Option.isSome_iff_exists.1 (h pu pu hu hu)
    obtain ⟨f, hf⟩ := Option.isSome_iff_exists.1 (h p p hp hp)
    have hd' : o.noiseX.isDiagonal = true := hn
    simp [obsMean, ha, ha', hb, hc, hd, he, hf, hd']

/-- Every measure was conditioned on processes of its prior, with acceptable noise. -/
def Sane (L : AWorld) : Prop := ∀ (m : MId) (a : AMeas) (u : URule), L.ms[m]? = some a →
  a.base = some u → u.obs.noiseOK ∧ ∀ p ∈ u.obs.refs, ∃ b, L.ms[u.prior]? = some b ∧ p ∈ b.ps

theorem total {L : AWorld} (wf : WfMs L) (sane : Sane L) : ∀ (m : MId) (a : AMeas),
    L.ms[m]? = some a → (∀ i ∈ a.ps, (L.mean m i).isSome) ∧
      ∀ i ∈ a.ps, ∀ j ∈ a.ps, (L.kernel m i j).isSome := by
  intro m
  induction m using Nat.strong_induction_on with
  | _ m ih =>
    intro a ha
    have h0 := wf m a ha
    have hbase : (∀ i ∈ a.basePs, (L.baseM a i).isSome) ∧
        ∀ i ∈ a.basePs, ∀ j ∈ a.basePs, (L.baseK a i j).isSome := by
      cases hb : a.base with
      | none => simp [h0.base_none hb]
      | some u =>
        obtain ⟨b, hb', hsub⟩ := h0.base_sub u hb
        obtain ⟨hn, hrefs⟩ := sane m a u ha hb
        obtain ⟨ihm, ihk⟩ := ih u.prior (h0.base_lt u hb) b hb'
        have hrefs' : ∀ p ∈ u.obs.refs, p ∈ b.ps := by
          intro p hp
          obtain ⟨b'', hb'', hp'⟩ := hrefs p hp
          rw [hb'] at hb''; cases hb''; exact hp'
        simp only [AWorld.baseM, AWorld.baseK, hb]
        exact ⟨fun i hi => obsMean_isSome (P := (· ∈ b.ps)) (fun i j hi hj => ihk i hi j hj) ihm hn
            hrefs' (hsub i hi),
          fun i hi j hj => obsKernel_isSome (P := (· ∈ b.ps)) (fun i j hi hj => ihk i hi j hj) hn
            hrefs' (hsub i hi) (hsub j hj)⟩
    refine ⟨fun i hi => ?_, fun i hi j hj => ?_⟩
    · rw [mean_eq wf.stable.base_lt ha]
      exact lookMDefs_isSome hbase.1 _ h0.inScope i hi
    · rw [kernel_eq wf.stable.base_lt ha]
      exact lookKDefs_isSome hbase.2 _ h0.inScope i hi j hj

/-! ## Frame properties of operations -/

/-- The state after a program of the specification machine. -/
def AM.after {α : Type} (c : AM α) (L : AWorld) : AWorld :=
  match c L with
  | .ok _ L' => L'
  | .error _ L' => L'

theorem after_spec (o : Op) (L : AWorld) : AM.after o.spec L = o.specAfter L := by
  unfold AM.after Op.specAfter
  cases o.spec L <;> rfl

/-- A relation between states is respected by a program. -/
def Keeps {α : Type} (R : AWorld → AWorld → Prop) (c : AM α) : Prop := ∀ L, R L (AM.after c L)

/-- Relations that the elementary steps of defining and naming respect. -/
structure Frameable (R : AWorld → AWorld → Prop) : Prop where
  refl : ∀ L, R L L
  trans : ∀ L1 L2 L3, R L1 L2 → R L2 L3 → R L1 L3
  newGP : ∀ L : AWorld, R L { L with gps := L.gps ++ [[]] }
  newMeasure : ∀ L : AWorld, R L { L with ms := L.ms ++ [({} : AMeas)] }
  push : ∀ (L : AWorld) m p d, R L (L.push m p d)
  names : ∀ (L : AWorld) m (f : AMeas → AMeas), Inert f →
    (∀ a, (f a).prevDefault = a.prevDefault) → R L (L.mod m f)

section Keeps
variable {R : AWorld → AWorld → Prop} (hR : Frameable R) {α β : Type}
include hR

theorem Keeps.bind {c : AM α} {f : α → AM β} (hc : Keeps R c) (hf : ∀ v, Keeps R (f v)) :
    Keeps R (c >>= f) := by
  intro L
  have h1 := hc L
  unfold AM.after at h1 ⊢
  change R L (match EStateM.bind c f L with | .ok _ L' => L' | .error _ L' => L')
  unfold EStateM.bind
  cases h : c L with
  | ok v L' =>
    rw [h] at h1
    exact hR.trans _ _ _ h1 (hf v L')
  | error e L' => rw [h] at h1; exact h1

theorem Keeps.pure (v : α) : Keeps R (pure v : AM α) := fun L => hR.refl L
theorem Keeps.throw (e : Err) : Keeps R (throw e : AM α) := fun L => hR.refl L

theorem Keeps.getMeas (m : MId) : Keeps R (aGetMeas m) := by
  intro L; unfold AM.after aGetMeas
  cases L.ms[m]? <;> exact hR.refl L

theorem Keeps.measuresOf (p : PId) : Keeps R (aMeasuresOf p) := by
  intro L; unfold AM.after aMeasuresOf
  cases L.gps[p]? <;> exact hR.refl L

theorem Keeps.newGP : Keeps R aNewGP := fun L => hR.newGP L
theorem Keeps.newMeasure : Keeps R aNewMeasure := fun L => hR.newMeasure L

theorem Keeps.define (m : MId) (p : PId) (d : ProcDef) : Keeps R (aDefine m p d) := by
  intro L; unfold AM.after aDefine
  by_cases h : (defMean m (L.mean m) d).isSome ∧ (defKernel m (L.kernel m) d).isSome
  · rw [if_pos h]; exact hR.push L m p d
  · rw [if_neg h]; exact hR.refl L

theorem Keeps.primary (p : PId) : Keeps R (aPrimary p) := by
  refine Keeps.bind hR (Keeps.measuresOf hR p) fun l => ?_
  cases l with
  | nil => exact Keeps.throw hR _
  | cons m _ => exact Keeps.pure hR m

theorem Keeps.assertSame (p : PId) : (qs : List PId) → Keeps R (aAssertSame p qs)
  | [] => Keeps.pure hR ()
  | q :: qs => by
    refine Keeps.bind hR (Keeps.primary hR p) fun mp => Keeps.bind hR (Keeps.primary hR q) fun mq => ?_
    split
    · exact Keeps.assertSame p qs
    · exact Keeps.throw hR _

theorem Keeps.sum (m : MId) (res p q : PId) : Keeps R (aSum m res p q) :=
  Keeps.bind hR (Keeps.assertSame hR p [q]) fun _ => Keeps.define hR m res _

theorem Keeps.mul (m : MId) (res p q : PId) : Keeps R (aMul m res p q) :=
  Keeps.bind hR (Keeps.assertSame hR p [q]) fun _ =>
  Keeps.bind hR (Keeps.newGP hR) fun _ =>
  Keeps.bind hR (Keeps.newGP hR) fun _ =>
  Keeps.bind hR (Keeps.define hR _ _ _) fun _ =>
  Keeps.bind hR (Keeps.newGP hR) fun _ =>
  Keeps.bind hR (Keeps.define hR _ _ _) fun _ =>
  Keeps.bind hR (Keeps.sum hR _ _ _ _) fun _ =>
  Keeps.bind hR (Keeps.newGP hR) fun _ =>
  Keeps.bind hR (Keeps.define hR _ _ _) fun _ => Keeps.sum hR _ _ _ _

theorem Keeps.forM {γ : Type} (l : List γ) {f : γ → AM Unit} (h : ∀ m, Keeps R (f m)) :
    Keeps R (l.forM f) := by
  induction l with
  | nil => exact Keeps.pure hR ()
  | cons m l ih => exact Keeps.bind hR (h m) fun _ => ih

theorem Keeps.mapM {γ δ : Type} (l : List γ) {f : γ → AM δ} (h : ∀ m, Keeps R (f m)) :
    Keeps R (l.mapM f) := by
  induction l with
  | nil => rw [List.mapM_nil]; exact Keeps.pure hR []
  | cons m l ih =>
    rw [List.mapM_cons]
    exact Keeps.bind hR (h m) fun _ => Keeps.bind hR ih fun _ => Keeps.pure hR _

theorem Keeps.intersection (p : PId) (qs : List PId) : Keeps R (aIntersection p qs) :=
  Keeps.bind hR (Keeps.assertSame hR p qs) fun _ =>
  Keeps.bind hR (Keeps.measuresOf hR p) fun _ =>
  Keeps.bind hR (Keeps.mapM hR qs fun q => Keeps.measuresOf hR q) fun _ => Keeps.pure hR _

theorem Keeps.iterate (s ord : List MId) {f : MId → AM Unit} (h : ∀ m, Keeps R (f m)) :
    Keeps R (aIterate s ord f) := by
  unfold aIterate
  split
  · exact Keeps.forM hR ord h
  · exact Keeps.throw hR _

theorem Keeps.setName (m : MId) (p : PId) (n : String) : Keeps R (aSetName m p n) := by
  refine Keeps.bind hR (Keeps.getMeas hR m) fun _ => Keeps.bind hR (fun L => ?_) fun _ =>
    Keeps.bind hR (Keeps.getMeas hR m) fun a => ?_
  · exact hR.names L m _ (unname_inert p) (fun a => unname_prevDefault a p)
  · split
    · exact Keeps.throw hR _
    · exact fun L => hR.names L m _ ⟨fun _ => rfl, fun _ => rfl, fun _ => rfl⟩ (fun _ => rfl)

theorem Keeps.resolve (x : Option MId) : Keeps R (aResolve x) := by
  cases x with
  | some m => exact Keeps.bind hR (Keeps.getMeas hR m) fun _ => Keeps.pure hR m
  | none =>
    refine Keeps.bind hR (fun L => hR.refl L) fun L => ?_
    cases L.default with
    | some m => exact Keeps.pure hR m
    | none => exact Keeps.newMeasure hR

theorem Keeps.nameNew (m : MId) (p : PId) (x : Option String) : Keeps R (aNameNew m p x) := by
  cases x with
  | none => exact Keeps.pure hR ()
  | some n =>
    change Keeps R (if n = "" then Pure.pure () else aSetName m p n)
    by_cases h : n = ""
    · rw [if_pos h]; exact Keeps.pure hR ()
    · rw [if_neg h]; exact Keeps.setName hR m p n

theorem Keeps.forget {c : AM α} (h : Keeps R c) : Keeps R (do let _ ← c) :=
  Keeps.bind hR h fun _ => Keeps.pure hR ()

theorem Keeps.unary (d : ProcDef) (p : PId) : Keeps R (aUnary d p) :=
  Keeps.bind hR (Keeps.newGP hR) fun _ => Keeps.bind hR (Keeps.measuresOf hR p) fun ms =>
    Keeps.bind hR (Keeps.forM hR ms fun _ => Keeps.define hR _ _ _) fun _ => Keeps.pure hR _

/-- Operations other than conditioning and contexts only define and name. -/
theorem Keeps.op (o : Op) (h1 : ∀ m obs, o ≠ .condition m obs) (h2 : ∀ m, o ≠ .enter m)
    (h3 : ∀ m, o ≠ .exit m) : Keeps R o.spec := by
  cases o with
  | newMeasure => exact Keeps.forget hR (Keeps.newMeasure hR)
  | newGP => exact Keeps.forget hR (Keeps.newGP hR)
  | gp mean kernel measure nm =>
    exact Keeps.forget hR (Keeps.bind hR (Keeps.newGP hR) fun p =>
      Keeps.bind hR (Keeps.resolve hR measure) fun m => Keeps.bind hR (Keeps.define hR m p _) fun _ =>
      Keeps.bind hR (Keeps.nameNew hR m p nm) fun _ => Keeps.pure hR p)
  | addFn p f => exact Keeps.forget hR (Keeps.unary hR _ p)
  | add p q ord =>
    exact Keeps.forget hR (Keeps.bind hR (Keeps.newGP hR) fun res =>
      Keeps.bind hR (Keeps.intersection hR p [q]) fun s =>
      Keeps.bind hR (Keeps.iterate hR s ord fun m => Keeps.sum hR m res p q) fun _ => Keeps.pure hR res)
  | scale p c => exact Keeps.forget hR (Keeps.unary hR _ p)
  | fmul p f => exact Keeps.forget hR (Keeps.unary hR _ p)
  | mul p q ord =>
    exact Keeps.forget hR (Keeps.bind hR (Keeps.newGP hR) fun res =>
      Keeps.bind hR (Keeps.intersection hR p [q]) fun s =>
      Keeps.bind hR (Keeps.iterate hR s ord fun m => Keeps.mul hR m res p q) fun _ => Keeps.pure hR res)
  | pre p t => exact Keeps.forget hR (Keeps.unary hR _ p)
  | diff p d => exact Keeps.forget hR (Keeps.unary hR _ p)
  | cross ps ord =>
    refine Keeps.forget hR (Keeps.bind hR (Keeps.newGP hR) fun res => ?_)
    cases ps with
    | nil => exact Keeps.throw hR _
    | cons p qs =>
      exact Keeps.bind hR (Keeps.intersection hR p qs) fun s =>
        Keeps.bind hR (Keeps.iterate hR s ord fun m => Keeps.define hR m res _) fun _ =>
        Keeps.pure hR res
  | addGP m mean kernel left right =>
    refine Keeps.forget hR (Keeps.bind hR (Keeps.getMeas hR m) fun a => ?_)
    split
    · exact Keeps.bind hR (Keeps.newGP hR) fun p => Keeps.bind hR (Keeps.define hR m p _) fun _ =>
        Keeps.pure hR p
    · exact Keeps.throw hR _
  | call m p =>
    exact Keeps.forget hR (Keeps.bind hR (Keeps.newGP hR) fun pc =>
      Keeps.bind hR (Keeps.getMeas hR m) fun _ => Keeps.bind hR (Keeps.define hR m pc _) fun _ =>
      Keeps.pure hR pc)
  | condition m obs => exact absurd rfl (h1 m obs)
  | getM m p =>
    intro L
    rw [after_spec, spec_read rfl]; exact hR.refl L
  | getK m p q =>
    intro L
    rw [after_spec, spec_read rfl]; exact hR.refl L
  | name m p s => exact Keeps.setName hR m p s
  | gpName p s =>
    exact Keeps.bind hR (Keeps.measuresOf hR p) fun ms => Keeps.forM hR ms fun m => Keeps.setName hR m p s
  | enter m => exact absurd rfl (h2 m)
  | exit m => exact absurd rfl (h3 m)

end Keeps

/-- No measure gains a base. -/
def NoNewBase (L L' : AWorld) : Prop := ∀ (m : MId) (a' : AMeas), L'.ms[m]? = some a' →
  a'.base ≠ none → ∃ a, L.ms[m]? = some a ∧ a.base = a'.base

theorem noNewBase_frameable : Frameable NoNewBase := by
  refine ⟨fun L m a ha _ => ⟨a, ha, rfl⟩, ?_, fun L m a ha _ => ⟨a, ha, rfl⟩, ?_, ?_, ?_⟩
  · intro L1 L2 L3 h1 h2 m a ha hb
    obtain ⟨a2, ha2, hb2⟩ := h2 m a ha hb
    obtain ⟨a1, ha1, hb1⟩ := h1 m a2 ha2 (by rw [hb2]; exact hb)
    exact ⟨a1, ha1, hb1.trans hb2⟩
  · intro L m a ha hb
    change (L.ms ++ [({} : AMeas)])[m]? = some a at ha
    rw [fresh_measure_ms] at ha
    split at ha
    · cases ha; exact absurd rfl hb
    · exact ⟨a, ha, rfl⟩
  · intro L m p d m' a ha hb
    rw [push_ms] at ha
    split at ha
    · cases h : L.ms[m']? with
      | none => rw [h] at ha; cases ha
      | some b => rw [h] at ha; cases ha; exact ⟨b, rfl, rfl⟩
    · exact ⟨a, ha, rfl⟩
  · intro L m f hf _ m' a ha hb
    obtain ⟨b, hb, hbase, _⟩ := inert_of hf ha
    exact ⟨b, hb, hbase.symm⟩

/-- The default measure and the saved defaults of existing measures stay. -/
def SameDefault (L L' : AWorld) : Prop := L'.default = L.default ∧
  ∀ (m : MId) (a : AMeas), L.ms[m]? = some a → ∃ a', L'.ms[m]? = some a' ∧
    a'.prevDefault = a.prevDefault

theorem sameDefault_frameable : Frameable SameDefault := by
  refine ⟨fun L => ⟨rfl, fun m a ha => ⟨a, ha, rfl⟩⟩, ?_, fun L => ⟨rfl, fun m a ha => ⟨a, ha, rfl⟩⟩,
    fun L => ⟨rfl, fun m a ha => ⟨a, ?_, rfl⟩⟩, fun L m p d => ⟨rfl, fun m' a ha => ?_⟩,
    fun L m f hf hp => ⟨rfl, fun m' a ha => ?_⟩⟩
  · intro L1 L2 L3 h1 h2
    refine ⟨h2.1.trans h1.1, fun m a ha => ?_⟩
    obtain ⟨a2, ha2, h⟩ := h1.2 m a ha
    obtain ⟨a3, ha3, h'⟩ := h2.2 m a2 ha2
    exact ⟨a3, ha3, h'.trans h⟩
  · show (L.ms ++ [({} : AMeas)])[m]? = some a
    rw [fresh_measure_ms, if_neg (Nat.ne_of_lt (List.getElem?_eq_some_iff.1 ha).1)]; exact ha
  · rw [push_ms]
    split
    · rw [ha]; exact ⟨_, rfl, rfl⟩
    · exact ⟨a, ha, rfl⟩
  · rw [mod_ms]
    split
    · rw [ha]; exact ⟨_, rfl, hp a⟩
    · exact ⟨a, ha, rfl⟩

theorem sameDefault_cond (L : AWorld) (m : MId) (obs : Obs) :
    SameDefault L ((Op.condition m obs).specAfter L) := by
  unfold Op.specAfter
  simp only [Op.spec, Bind.bind, EStateM.bind, aCondition]
  cases ha : L.ms[m]? with
  | none => exact sameDefault_frameable.refl L
  | some a =>
    refine ⟨rfl, fun m' a' ha' => ⟨a', ?_, rfl⟩⟩
    show (L.ms ++ [_])[m']? = some a'
    rw [fresh_measure_ms, if_neg (Nat.ne_of_lt (List.getElem?_eq_some_iff.1 ha').1)]; exact ha'

/-- Operations other than contexts leave defaults alone. -/
theorem sameDefault_op {o : Op} (h2 : ∀ m, o ≠ .enter m) (h3 : ∀ m, o ≠ .exit m) (L : AWorld) :
    SameDefault L (o.specAfter L) := by
  by_cases h : ∃ m obs, o = .condition m obs
  · obtain ⟨m, obs, rfl⟩ := h
    exact sameDefault_cond L m obs
  · rw [← after_spec]; exact Keeps.op sameDefault_frameable o (fun m obs he => h ⟨m, obs, he⟩) h2 h3 L

theorem noNewBase_op {o : Op} (h1 : ∀ m obs, o ≠ .condition m obs) (L : AWorld) :
    NoNewBase L (o.specAfter L) := by
  by_cases h : (∃ m, o = .enter m) ∨ ∃ m, o = .exit m
  · rcases h with ⟨m, rfl⟩ | ⟨m, rfl⟩
    · unfold Op.specAfter
      simp only [Op.spec, aEnter, Bind.bind, EStateM.bind, aGetMeas]
      cases ha : L.ms[m]? with
      | none => exact noNewBase_frameable.refl L
      | some a =>
        have hf : Inert (fun a : AMeas => { a with prevDefault := L.default }) :=
          ⟨fun _ => rfl, fun _ => rfl, fun _ => rfl⟩
        intro m' a' ha' hb
        change (L.mod m _).ms[m']? = some a' at ha'
        obtain ⟨b, hb, hbase, _⟩ := inert_of hf ha'
        exact ⟨b, hb, hbase.symm⟩
    · unfold Op.specAfter
      simp only [Op.spec, aExit, Bind.bind, EStateM.bind, aGetMeas]
      cases ha : L.ms[m]? with
      | none => exact noNewBase_frameable.refl L
      | some a => exact noNewBase_frameable.refl L
  · rw [← after_spec]
    exact Keeps.op noNewBase_frameable o h1 (fun m he => h (.inl ⟨m, he⟩))
      (fun m he => h (.inr ⟨m, he⟩)) L

theorem condition_spec {L : AWorld} {m : MId} {a : AMeas} (ha : L.ms[m]? = some a) (obs : Obs) :
    (Op.condition m obs).specAfter L = L.cond m a obs := by
  unfold Op.specAfter
  simp only [Op.spec, Bind.bind, EStateM.bind, aCondition, ha]
  rfl

theorem condition_spec_none {L : AWorld} {m : MId} (ha : L.ms[m]? = none) (obs : Obs) :
    (Op.condition m obs).specAfter L = L := by
  unfold Op.specAfter
  simp only [Op.spec, Bind.bind, EStateM.bind, aCondition, ha]

/-- Proper programs lead to sane states. -/
theorem sane_of_proper (ops : List Op) (h : Proper ops) : Sane (specOps ops {}) := by
  induction ops using List.reverseRecOn with
  | nil => intro m a u ha; simp [specOps] at ha
  | append_singleton ops o ih =>
    have hp : Proper ops := fun before m obs after he => h before m obs (after ++ [o]) (by simp [he])
    have ih := ih hp
    have hinv := Inv.reach ops
    rw [specOps_append]
    show Sane (o.specAfter (specOps ops {}))
    have hext := (hinv.after o).2
    have lift : ∀ (m : MId) p, (∃ b, (specOps ops {}).ms[m]? = some b ∧ p ∈ b.ps) →
        ∃ b, (o.specAfter (specOps ops {})).ms[m]? = some b ∧ p ∈ b.ps := by
      rintro m p ⟨b, hb, hp⟩
      obtain ⟨b', hb', _⟩ := hext.meas m b hb
      exact ⟨b', hb', hext.known hb hb' hp⟩
    by_cases hc : ∃ m obs, o = .condition m obs
    · obtain ⟨m, obs, rfl⟩ := hc
      obtain ⟨hn, hatt⟩ := h ops m obs [] rfl
      cases ha : (specOps ops {}).ms[m]? with
      | none => rw [condition_spec_none ha]; exact ih
      | some a =>
        intro m' a' u ha' hb'
        have ha'' := ha'
        rw [condition_spec ha] at ha''
        change ((specOps ops {}).ms ++ [_])[m']? = some a' at ha''
        rw [fresh_measure_ms] at ha''
        split at ha''
        · cases ha''
          cases hb'
          exact ⟨hn, fun p hp => lift _ _ (hinv.attached.1 (hatt p hp))⟩
        · obtain ⟨h1, h2⟩ := ih m' a' u ha'' hb'
          exact ⟨h1, fun p hp => lift _ _ (h2 p hp)⟩
    · intro m' a' u ha' hb'
      obtain ⟨b, hb, hbase⟩ := noNewBase_op (fun m obs he => hc ⟨m, obs, he⟩) _ m' a' ha'
        (by rw [hb']; simp)
      obtain ⟨h1, h2⟩ := ih m' b u hb (by rw [hbase, hb'])
      exact ⟨h1, fun p hp => lift _ _ (h2 p hp)⟩

end Stheno
