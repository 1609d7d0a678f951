import Verif.Refine

/-!
# Refinement: relational reasoning about programs
-/

namespace Stheno

/-- The program `c` of the graph machine does what the program `ac` of the specification machine does,
from any heap that represents a well-formed state with property `P`. Exceptions included. -/
def SimA {α : Type} (P : AWorld → Prop) (c : M α) (ac : AM α) (Q : AWorld → α → AWorld → Prop) : Prop :=
  ∀ w L, Rel w L → Wf L → P L →
    (∃ v w' L', c w = .ok v w' ∧ ac L = .ok v L' ∧ Rel w' L' ∧ Wf L' ∧ Ext L L' ∧ Q L v L') ∨
    (∃ e w' L', c w = .error e w' ∧ ac L = .error e L' ∧ Rel w' L' ∧ Wf L' ∧ Ext L L')

section Rules
variable {α β : Type} {P : AWorld → Prop} {c : M α} {ac : AM α} {Q : AWorld → α → AWorld → Prop}

theorem SimA.bind {f : α → M β} {af : α → AM β} {R : AWorld → β → AWorld → Prop}
    (h : SimA P c ac Q)
    (hf : ∀ L0 v, P L0 → SimA (fun L => Ext L0 L ∧ Q L0 v L) (f v) (af v) (fun _ v' L' => R L0 v' L')) :
    SimA P (c >>= f) (ac >>= af) R := by
  intro w L hr wf hP
  show (∃ v w' L', EStateM.bind c f w = _ ∧ EStateM.bind ac af L = _ ∧ _) ∨
    (∃ e w' L', EStateM.bind c f w = _ ∧ EStateM.bind ac af L = _ ∧ _)
  simp only [EStateM.bind]
  rcases h w L hr wf hP with ⟨v, w1, L1, h1, h2, hr1, wf1, ext1, hQ⟩ |
    ⟨e, w1, L1, h1, h2, hr1, wf1, ext1⟩
  · rw [h1, h2]
    rcases hf L v hP w1 L1 hr1 wf1 ⟨ext1, hQ⟩ with ⟨v', w2, L2, h3, h4, hr2, wf2, ext2, hR⟩ |
      ⟨e, w2, L2, h3, h4, hr2, wf2, ext2⟩
    · exact .inl ⟨v', w2, L2, h3, h4, hr2, wf2, ext1.trans ext2, hR⟩
    · exact .inr ⟨e, w2, L2, h3, h4, hr2, wf2, ext1.trans ext2⟩
  · rw [h1, h2]
    exact .inr ⟨e, w1, L1, rfl, rfl, hr1, wf1, ext1⟩

theorem SimA.pure (v : α) : SimA P (Pure.pure v) (Pure.pure v) (fun L v' L' => v' = v ∧ L' = L) :=
  fun w L hr wf _ => .inl ⟨v, w, L, rfl, rfl, hr, wf, Ext.refl L, rfl, rfl⟩

theorem SimA.throw (e : Err) : SimA P (throw e : M α) (throw e : AM α) Q :=
  fun w L hr wf _ => .inr ⟨e, w, L, rfl, rfl, hr, wf, Ext.refl L⟩

theorem SimA.weaken {P' : AWorld → Prop} {Q' : AWorld → α → AWorld → Prop} (h : SimA P c ac Q)
    (hP : ∀ L, P' L → P L) (hQ : ∀ L v L', P' L → Ext L L' → Q L v L' → Q' L v L') :
    SimA P' c ac Q' := by
  intro w L hr wf hP'
  rcases h w L hr wf (hP L hP') with ⟨v, w1, L1, h1, h2, hr1, wf1, ext1, hq⟩ | h
  · exact .inl ⟨v, w1, L1, h1, h2, hr1, wf1, ext1, hQ L v L1 hP' ext1 hq⟩
  · exact .inr h

theorem SimA.ite {p : Prop} [Decidable p] {c' : M α} {ac' : AM α} (h : p → SimA P c ac Q)
    (h' : ¬ p → SimA P c' ac' Q) :
    SimA P (if p then c else c') (if p then ac else ac') Q := by
  split
  · next hp => exact h hp
  · next hp => exact h' hp

theorem SimA.ite_bool {p : Bool} {c' : M α} {ac' : AM α} (h : p = true → SimA P c ac Q)
    (h' : p = false → SimA P c' ac' Q) :
    SimA P (if p then c else c') (if p then ac else ac') Q := by
  cases p
  · exact h' rfl
  · exact h rfl

/-- Preconditions may be used as hypotheses about a fixed state. -/
theorem SimA.pre (h : ∀ L0, P L0 → SimA (fun L => L = L0) c ac Q) : SimA P c ac Q := by
  intro w L hr wf hP
  exact h L hP w L hr wf rfl

end Rules

/-! ## Elementary operations -/

theorem sim_newGP : SimA (fun _ => True) newGP aNewGP
    (fun L v L' => v = L.gps.length ∧ L' = { L with gps := L.gps ++ [[]] }) := by
  intro w L hr wf _
  refine .inl ⟨L.gps.length, { w with gps := w.gps ++ [[]] }, { L with gps := L.gps ++ [[]] }, ?_, rfl,
    ⟨hr.len, ?_, by simp [hr.gps], hr.default⟩, ?_, ?_, rfl, rfl⟩
  · rw [← hr.gps]; rfl
  · intro m s a hs ha
    refine RelM.congr ?_ (hr.meas m s a hs ha)
    rfl
  · have hg : ∀ (p : PId) (l : List MId), (L.gps ++ [[]])[p]? = some l →
        L.gps[p]? = some l ∨ l = [] := by
      intro p l hl
      rw [List.getElem?_append] at hl
      split at hl
      · exact .inl hl
      · rw [List.getElem?_singleton] at hl
        split at hl
        · right; simpa using hl.symm
        · simp at hl
    refine ⟨WfMs.congr (L := L) rfl wf.ms, ?_, ?_, ?_, wf.default, wf.prevDefault, wf.names⟩
    · intro m a ha p hp
      obtain ⟨l, hl, hm⟩ := wf.mem_gps m a ha p hp
      refine ⟨l, ?_, hm⟩
      rw [List.getElem?_append_left (List.getElem?_eq_some_iff.1 hl).1]; exact hl
    · intro p l hl m hm
      rcases hg p l hl with h | rfl
      · exact wf.gps_mem p l h m hm
      · simp at hm
    · intro p l hl
      rcases hg p l hl with h | rfl
      · exact wf.gps_nodup p l h
      · simp
  · refine ⟨fun m a ha => ⟨a, ha, rfl, rfl, [], rfl⟩, fun p l hl => ⟨[], ?_⟩⟩
    rw [List.append_nil, List.getElem?_append_left (List.getElem?_eq_some_iff.1 hl).1]; exact hl

theorem sim_measuresOf (p : PId) : SimA (fun _ => True) (measuresOf p) (aMeasuresOf p)
    (fun L l L' => L' = L ∧ L.gps[p]? = some l) := by
  intro w L hr wf _
  unfold measuresOf aMeasuresOf
  rw [hr.gps]
  cases h : L.gps[p]? with
  | none => exact .inr ⟨_, w, L, rfl, rfl, hr, wf, Ext.refl L⟩
  | some l => exact .inl ⟨l, w, L, rfl, rfl, hr, wf, Ext.refl L, rfl, h⟩

theorem sim_primary (p : PId) : SimA (fun _ => True) (primary p) (aPrimary p)
    (fun L _ L' => L' = L) := by
  refine SimA.bind (sim_measuresOf p) fun L0 l _ => ?_
  cases l with
  | nil => exact SimA.throw _
  | cons m l => exact (SimA.pure m).weaken (fun L h => h) (fun L v L' h _ hq => by
      rw [hq.2, h.2.1])

theorem sim_assertSame (p : PId) (qs : List PId) : SimA (fun _ => True) (assertSame p qs)
    (aAssertSame p qs) (fun L _ L' => L' = L) := by
  induction qs with
  | nil => exact (SimA.pure ()).weaken (fun L h => h) (fun L v L' h _ hq => hq.2)
  | cons q qs ih =>
    refine SimA.bind (sim_primary p) fun L0 mp _ => ?_
    refine SimA.bind ((sim_primary q).weaken (fun _ _ => trivial) (fun L v L' h _ hq => hq))
      fun L1 mq h1 => ?_
    refine SimA.ite (fun _ => ?_) (fun _ => SimA.throw _)
    exact ih.weaken (fun _ _ => trivial) (fun L v L' h _ hq => by rw [hq, h.2, h1.2])

theorem sim_getK (m : MId) (i j : PId) : SimA (fun _ => True) (getK m i j) (aGetK m i j)
    (fun L k L' => L' = L ∧ m < L.ms.length ∧ L.kernel m i j = some k) := by
  intro w L hr wf _
  by_cases hm : m < L.ms.length
  · obtain ⟨w', hr', h⟩ := Sim.getK wf.ms hm i j w hr
    unfold aGetK
    rw [if_pos hm, h]
    cases hk : L.kernel m i j with
    | none => exact .inr ⟨_, w', L, rfl, rfl, hr', wf, Ext.refl L⟩
    | some k => exact .inl ⟨k, w', L, rfl, rfl, hr', wf, Ext.refl L, rfl, hm, hk⟩
  · refine .inr ⟨.dangling, w, L, ?_, by simp [aGetK, hm], hr, wf, Ext.refl L⟩
    have hn : w.ms[m]? = none := by rw [List.getElem?_eq_none_iff, hr.len]; omega
    show getKAux w.fuel m i j w = _
    have : w.fuel = (w.fuel - 1) + 1 := by simp [World.fuel]
    rw [this]
    simp [getKAux, Bind.bind, EStateM.bind, getMeas, hn]

theorem sim_getM (m : MId) (i : PId) : SimA (fun _ => True) (getM m i) (aGetM m i)
    (fun L k L' => L' = L ∧ m < L.ms.length ∧ L.mean m i = some k) := by
  intro w L hr wf _
  by_cases hm : m < L.ms.length
  · obtain ⟨w', hr', h⟩ := Sim.getM wf.ms hm i w hr
    unfold aGetM
    rw [if_pos hm, h]
    cases hk : L.mean m i with
    | none => exact .inr ⟨_, w', L, rfl, rfl, hr', wf, Ext.refl L⟩
    | some k => exact .inl ⟨k, w', L, rfl, rfl, hr', wf, Ext.refl L, rfl, hm, hk⟩
  · refine .inr ⟨.dangling, w, L, ?_, by simp [aGetM, hm], hr, wf, Ext.refl L⟩
    have hn : w.ms[m]? = none := by rw [List.getElem?_eq_none_iff, hr.len]; omega
    show getMAux w.fuel m i w = _
    have : w.fuel = (w.fuel - 1) + 1 := by simp [World.fuel]
    rw [this]
    simp [getMAux, Bind.bind, EStateM.bind, getMeas, hn]

/-! ## Definitions -/

/-- What a definition may refer to. Only a Cartesian product refers to processes without looking
up their means and kernels. -/
def RefsOK (L : AWorld) (m : MId) : ProcDef → Prop
  | .cross ps => ∀ a, L.ms[m]? = some a → ∀ q ∈ ps, q ∈ a.ps
  | .custom _ _ l => ∀ a, L.ms[m]? = some a → ∀ q ∈ l.refs, q ∈ a.ps
  | _ => True

theorem refs_known {L : AWorld} (wf : Wf L) {m : MId} {a : AMeas} (ha : L.ms[m]? = some a)
    {d : ProcDef} (hd : RefsOK L m d) (hm : (defMean m (L.mean m) d).isSome) :
    ∀ q ∈ d.refs, q ∈ a.ps := by
  have known : ∀ q, (L.mean m q).isSome → q ∈ a.ps := by
    intro q hq
    obtain ⟨v, hv⟩ := Option.isSome_iff_exists.1 hq
    rw [mean_eq wf.ms.stable.base_lt ha] at hv
    exact lookMDefs_known hv
  cases d with
  | indep => simp [ProcDef.refs]
  | cross ps => exact hd a ha
  | custom _ _ l => exact hd a ha
  | copy p =>
    intro q hq
    simp only [ProcDef.refs, List.mem_singleton] at hq
    subst hq
    exact known _ hm
  | sum p q | rem p q =>
    intro x hx
    simp only [ProcDef.refs, List.mem_cons, List.not_mem_nil, or_false] at hx
    cases h1 : L.mean m p with
    | none => simp [defMean, h1] at hm
    | some v =>
      cases h2 : L.mean m q with
      | none => simp [defMean, h1, h2] at hm
      | some v' =>
        rcases hx with rfl | rfl
        · exact known _ (by rw [h1]; rfl)
        · exact known _ (by rw [h2]; rfl)
  | _ =>
    intro q hq
    simp only [ProcDef.refs, List.mem_singleton] at hq
    subst hq
    cases h1 : L.mean m q with
    | none => simp [defMean, h1] at hm
    | some v => exact known _ (by rw [h1]; rfl)

/-- A program that looks up what a definition needs and then calls `_update` makes the definition. -/
theorem sim_define {m : MId} {res : PId} {d : ProcDef} {right : Option RRule}
    (hright : right.getD (.rev res) = d.rrule res) {look : M (MExpr × KExpr)}
    (hlook : ∀ L, Wf L → m < L.ms.length → Sim L look (do
      let mean ← defMean m (L.mean m) d
      let kernel ← defKernel m (L.kernel m) d
      pure (mean, kernel))) :
    SimA (fun L => m < L.ms.length ∧ Fresh L m res ∧ RefsOK L m d)
      (look >>= fun x => update m res x.1 x.2 (d.lrule m) right) (aDefine m res d)
      (fun L _ L' => L' = L.push m res d) := by
  rintro w L hr wf ⟨hm, hf, hrefs⟩
  obtain ⟨w1, hr1, h1⟩ := hlook L wf hm w hr
  show (∃ v w' L', EStateM.bind look _ w = _ ∧ _) ∨ (∃ e w' L', EStateM.bind look _ w = _ ∧ _)
  simp only [EStateM.bind, h1]
  have ha : L.ms[m]? = some L.ms[m] := List.getElem?_eq_getElem hm
  cases hmean : defMean m (L.mean m) d with
  | none => exact .inr ⟨.runtime, w1, L, rfl, by simp [aDefine, hmean], hr1, wf, Ext.refl L⟩
  | some mean =>
    cases hk : defKernel m (L.kernel m) d with
    | none => exact .inr ⟨.runtime, w1, L, rfl, by simp [aDefine, hk], hr1, wf, Ext.refl L⟩
    | some kernel =>
      obtain ⟨w2, h2, hr2⟩ := hr1.upd wf ha hf hmean hk hright
      refine .inl ⟨(), w2, L.push m res d, h2, by simp [aDefine, hmean, hk], hr2, ?_, push_ext, rfl⟩
      exact wf.push ha hf (refs_known wf ha hrefs (by rw [hmean]; rfl)) (by rw [hmean]; rfl)
        (by rw [hk]; rfl)

/-- The common precondition of the loops in `gp.py`: `res` can be attached to `m`. -/
def CanDef (m : MId) (res : PId) (L : AWorld) : Prop := m < L.ms.length ∧ Fresh L m res

theorem sim_mSumFn (m : MId) (res p : PId) (f : Fn) :
    SimA (CanDef m res) (mSumFn m res p f) (aDefine m res (.addFn p f))
      (fun L _ L' => L' = L.push m res (.addFn p f)) := by
  have h := sim_define (m := m) (res := res) (d := .addFn p f) (right := none) rfl
    (look := do
      let mean ← getM m p
      let kernel ← getK m p p
      pure (.add mean (.fn f), kernel)) (fun L wf hm => by
        simp only [defMean, defKernel, Option.bind_eq_bind, Option.bind_assoc]
        exact Sim.bind (Sim.getM wf.ms hm p) fun _ _ => Sim.bind (Sim.getK wf.ms hm p p) fun _ _ =>
          Sim.pure _)
  simp only [bind_assoc, pure_bind] at h
  exact h.weaken (fun L hL => ⟨hL.1, hL.2, trivial⟩) (fun _ _ _ _ _ hq => hq)

theorem sim_mScale (m : MId) (res p : PId) (c : ℝ) :
    SimA (CanDef m res) (mScale m res p c) (aDefine m res (.scale p c))
      (fun L _ L' => L' = L.push m res (.scale p c)) := by
  have h := sim_define (m := m) (res := res) (d := .scale p c) (right := none) rfl
    (look := do
      let mean ← getM m p
      let kernel ← getK m p p
      pure (.scale c mean, kscale (c ^ 2) kernel)) (fun L wf hm => by
        simp only [defMean, defKernel, Option.bind_eq_bind, Option.bind_assoc]
        exact Sim.bind (Sim.getM wf.ms hm p) fun _ _ => Sim.bind (Sim.getK wf.ms hm p p) fun _ _ =>
          Sim.pure _)
  simp only [bind_assoc, pure_bind] at h
  exact h.weaken (fun L hL => ⟨hL.1, hL.2, trivial⟩) (fun _ _ _ _ _ hq => hq)

theorem sim_mFmul (m : MId) (res p : PId) (f : Fn) :
    SimA (CanDef m res) (mFmul m res p f) (aDefine m res (.fmul p f))
      (fun L _ L' => L' = L.push m res (.fmul p f)) := by
  have h := sim_define (m := m) (res := res) (d := .fmul p f) (right := none) rfl
    (look := do
      let mean ← getM m p
      let kernel ← getK m p p
      pure (.mul (.fn f) mean, kmul (.tprod f f) kernel)) (fun L wf hm => by
        simp only [defMean, defKernel, Option.bind_eq_bind, Option.bind_assoc]
        exact Sim.bind (Sim.getM wf.ms hm p) fun _ _ => Sim.bind (Sim.getK wf.ms hm p p) fun _ _ =>
          Sim.pure _)
  simp only [bind_assoc, pure_bind] at h
  exact h.weaken (fun L hL => ⟨hL.1, hL.2, trivial⟩) (fun _ _ _ _ _ hq => hq)

theorem sim_mPre (m : MId) (res p : PId) (t : InTr) :
    SimA (CanDef m res) (mPre m res p t) (aDefine m res (.pre p t))
      (fun L _ L' => L' = L.push m res (.pre p t)) := by
  have h := sim_define (m := m) (res := res) (d := .pre p t) (right := none) rfl
    (look := do
      let mean ← getM m p
      let kernel ← getK m p p
      pure (.pre t mean, kpre t t kernel)) (fun L wf hm => by
        simp only [defMean, defKernel, Option.bind_eq_bind, Option.bind_assoc]
        exact Sim.bind (Sim.getM wf.ms hm p) fun _ _ => Sim.bind (Sim.getK wf.ms hm p p) fun _ _ =>
          Sim.pure _)
  simp only [bind_assoc, pure_bind] at h
  exact h.weaken (fun L hL => ⟨hL.1, hL.2, trivial⟩) (fun _ _ _ _ _ hq => hq)

theorem sim_mDiff (m : MId) (res p : PId) (i : ℕ) :
    SimA (CanDef m res) (mDiff m res p i) (aDefine m res (.diff p i))
      (fun L _ L' => L' = L.push m res (.diff p i)) := by
  have h := sim_define (m := m) (res := res) (d := .diff p i) (right := none) rfl
    (look := do
      let mean ← getM m p
      let kernel ← getK m p p
      pure (.diff i mean, kdiff (some i) (some i) kernel)) (fun L wf hm => by
        simp only [defMean, defKernel, Option.bind_eq_bind, Option.bind_assoc]
        exact Sim.bind (Sim.getM wf.ms hm p) fun _ _ => Sim.bind (Sim.getK wf.ms hm p p) fun _ _ =>
          Sim.pure _)
  simp only [bind_assoc, pure_bind] at h
  exact h.weaken (fun L hL => ⟨hL.1, hL.2, trivial⟩) (fun _ _ _ _ _ hq => hq)

theorem sim_mCross (m : MId) (res : PId) (ps : List PId) :
    SimA (fun L => CanDef m res L ∧ RefsOK L m (.cross ps)) (mCross m res ps)
      (aDefine m res (.cross ps)) (fun L _ L' => L' = L.push m res (.cross ps)) := by
  have h := sim_define (m := m) (res := res) (d := .cross ps) (right := none) rfl
    (look := pure (.mom m ps, .mok m ps)) (fun L wf hm => Sim.pure _)
  simp only [pure_bind] at h
  exact h.weaken (fun L hL => ⟨hL.1.1, hL.1.2, hL.2⟩) (fun _ _ _ _ _ hq => hq)

theorem addIndependent_eq (m : MId) (p : PId) (mean : MExpr) (kernel : KExpr) :
    addIndependent m p mean kernel = update m p mean kernel .zero (some .zero) := rfl

theorem sim_addIndependent (m : MId) (res : PId) (mean : MExpr) (kernel : KExpr) :
    SimA (CanDef m res) (addIndependent m res mean kernel)
      (aDefine m res (.indep mean kernel)) (fun L _ L' => L' = L.push m res (.indep mean kernel)) := by
  have h := sim_define (m := m) (res := res) (d := .indep mean kernel) (right := some .zero) rfl
    (look := pure (mean, kernel)) (fun L wf hm => Sim.pure _)
  simp only [pure_bind] at h
  exact h.weaken (fun L hL => ⟨hL.1, hL.2, trivial⟩) (fun _ _ _ _ _ hq => hq)

theorem sim_rem (m : MId) (res p1 p2 : PId) :
    SimA (CanDef m res) (mRem m res p1 p2)
      (aDefine m res (.rem p1 p2)) (fun L _ L' => L' = L.push m res (.rem p1 p2)) := by
  have h := sim_define (m := m) (res := res) (d := .rem p1 p2) (right := some .zero) rfl
    (look := do
        let m1 ← getM m p1
        let m2 ← getM m p2
        let k1 ← getK m p1 p1
        let k2 ← getK m p2 p2
        let k12 ← getK m p1 p2
        let k21 ← getK m p2 p1
        pure (.mul (.scale (-1) m1) m2, kadd (kmul k1 k2) (kmul k12 k21))) (fun L wf hm => by
        simp only [defMean, defKernel, Option.bind_eq_bind, Option.bind_assoc]
        exact Sim.bind (Sim.getM wf.ms hm p1) fun _ _ => Sim.bind (Sim.getM wf.ms hm p2) fun _ _ =>
          Sim.bind (Sim.getK wf.ms hm _ _) fun _ _ => Sim.bind (Sim.getK wf.ms hm _ _) fun _ _ =>
          Sim.bind (Sim.getK wf.ms hm _ _) fun _ _ => Sim.bind (Sim.getK wf.ms hm _ _) fun _ _ =>
          Sim.pure _)
  simp only [bind_assoc, pure_bind] at h
  exact h.weaken (fun L hL => ⟨hL.1, hL.2, trivial⟩) (fun _ _ _ _ _ hq => hq)

theorem sim_mSum (m : MId) (res p1 p2 : PId) :
    SimA (CanDef m res) (mSum m res p1 p2) (aSum m res p1 p2)
      (fun L _ L' => L' = L.push m res (.sum p1 p2)) := by
  have h := sim_define (m := m) (res := res) (d := .sum p1 p2) (right := none) rfl
    (look := do
        let m1 ← getM m p1
        let m2 ← getM m p2
        let k1 ← getK m p1 p1
        let k2 ← getK m p2 p2
        let k12 ← getK m p1 p2
        let k21 ← getK m p2 p1
        pure (.add m1 m2, kadd (kadd (kadd k1 k2) k12) k21)) (fun L wf hm => by
        simp only [defMean, defKernel, Option.bind_eq_bind, Option.bind_assoc]
        exact Sim.bind (Sim.getM wf.ms hm p1) fun _ _ => Sim.bind (Sim.getM wf.ms hm p2) fun _ _ =>
          Sim.bind (Sim.getK wf.ms hm _ _) fun _ _ => Sim.bind (Sim.getK wf.ms hm _ _) fun _ _ =>
          Sim.bind (Sim.getK wf.ms hm _ _) fun _ _ => Sim.bind (Sim.getK wf.ms hm _ _) fun _ _ =>
          Sim.pure _)
  simp only [bind_assoc, pure_bind] at h
  refine SimA.bind ((sim_assertSame p1 [p2]).weaken (fun _ _ => trivial) (fun _ _ _ _ _ hq => hq))
    fun L0 _ h0 => ?_
  exact h.weaken (fun L hL => by rw [hL.2]; exact ⟨h0.1, h0.2, trivial⟩)
    (fun L _ _ hL _ hq => by rw [hq, hL.2])

theorem sim_callGP (m : MId) (p : PId) :
    SimA (fun _ => True) (callGP m p) (aCall m p) (fun _ _ _ => True) := by
  refine SimA.bind sim_newGP fun L0 pc _ => ?_
  by_cases hm : m < L0.ms.length
  · have h := sim_define (m := m) (res := pc) (d := .copy p) (right := some (.look p)) rfl
      (look := do
        let mean ← getM m p
        let kernel ← getK m p p
        pure (mean, kernel)) (fun L wf hm => by
        simp only [defMean, defKernel, Option.bind_eq_bind]
        exact Sim.bind (Sim.getM wf.ms hm p) fun _ _ => Sim.bind (Sim.getK wf.ms hm p p) fun _ _ =>
          Sim.pure _)
    simp only [bind_assoc, pure_bind] at h
    have h2 := SimA.bind h fun L0 _ _ =>
      (SimA.pure (P := fun L => Ext L0 L ∧ L = L0.push m pc (ProcDef.copy p)) pc).weaken
        (fun L hL => hL) (fun _ _ _ _ _ _ => trivial) (Q' := fun _ _ _ => True)
    simp only [bind_assoc] at h2
    intro w L hr wf hL
    obtain ⟨ext, hpc, hL'⟩ := hL
    have hpre : m < L.ms.length ∧ Fresh L m pc ∧ RefsOK L m (.copy p) := by
      subst hL' hpc
      exact ⟨hm, ⟨[], by simp, by simp⟩, trivial⟩
    have h3 := h2 w L hr wf hpre
    have hg : aGetMeas m L = .ok L.ms[m] L := by
      simp [aGetMeas, List.getElem?_eq_getElem hpre.1]
    have : (do let _ ← aGetMeas m; aDefine m pc (.copy p); pure pc : AM PId) L =
        (do aDefine m pc (.copy p); pure pc : AM PId) L := by
      show EStateM.bind (aGetMeas m) _ L = _
      simp only [EStateM.bind, hg]
    rw [this]
    exact h3
  · intro w L hr wf hL
    obtain ⟨ext, hpc, hL'⟩ := hL
    have hmL : ¬ m < L.ms.length := by rw [hL']; exact hm
    refine .inr ⟨.dangling, w, L, ?_, ?_, hr, wf, Ext.refl L⟩
    · rcases sim_getM m p w L hr wf trivial with ⟨v, w', L', h1, h2, _, _, _, hq⟩ |
        ⟨e, w', L', h1, h2, hr', wf', _⟩
      · exact absurd hq.2.1 hmL
      · show EStateM.bind (getM m p) _ w = _
        have hn : w.ms[m]? = none := by rw [List.getElem?_eq_none_iff, hr.len]; omega
        have hgm : getM m p w = .error .dangling w := by
          show getMAux w.fuel m p w = _
          have : w.fuel = (w.fuel - 1) + 1 := by simp [World.fuel]
          rw [this]
          simp [getMAux, Bind.bind, EStateM.bind, getMeas, hn]
        simp only [EStateM.bind, hgm]
    · show EStateM.bind (aGetMeas m) _ L = _
      have hn : L.ms[m]? = none := by rw [List.getElem?_eq_none_iff]; omega
      simp [EStateM.bind, aGetMeas, hn]

/-! ## Freshness -/

theorem fresh_push {L : AWorld} {m m' : MId} {p p' : PId} {d : ProcDef} (h : Fresh L m' p')
    (hne : m' ≠ m ∨ p' ≠ p) : Fresh (L.push m p d) m' p' := by
  obtain ⟨l, hl, hm⟩ := h
  unfold Fresh
  rw [push_gps]
  split
  · next hp =>
    refine ⟨l ++ [m], by rw [hl]; rfl, ?_⟩
    rcases hne with h | h
    · simp [hm, h]
    · exact absurd hp.symm h
  · exact ⟨l, hl, hm⟩

theorem fresh_new {L : AWorld} {m : MId} {p : PId} (h : Fresh L m p) :
    Fresh { L with gps := L.gps ++ [[]] } m p := by
  obtain ⟨l, hl, hm⟩ := h
  exact ⟨l, by
    show (L.gps ++ [[]])[p]? = _
    rw [List.getElem?_append_left (List.getElem?_eq_some_iff.1 hl).1]; exact hl, hm⟩

theorem fresh_new_self (L : AWorld) (m : MId) :
    Fresh { L with gps := L.gps ++ [[]] } m L.gps.length :=
  ⟨[], by simp, by simp⟩

theorem Fresh.lt {L : AWorld} {m : MId} {p : PId} (h : Fresh L m p) : p < L.gps.length := by
  obtain ⟨l, hl, _⟩ := h
  exact (List.getElem?_eq_some_iff.1 hl).1

/-- Processes that could be attached to other measures still can be. -/
def Frame (m : MId) (L L' : AWorld) : Prop := ∀ m' q, m' ≠ m → Fresh L m' q → Fresh L' m' q

theorem frame_push {L : AWorld} {m : MId} {p : PId} {d : ProcDef} : Frame m L (L.push m p d) :=
  fun _ _ hne h => fresh_push h (.inl hne)

theorem frame_new {L : AWorld} {m : MId} : Frame m L { L with gps := L.gps ++ [[]] } :=
  fun _ _ _ h => fresh_new h

theorem Frame.trans {m : MId} {L L' L'' : AWorld} (h : Frame m L L') (h' : Frame m L' L'') :
    Frame m L L'' := fun m' q hne hf => h' m' q hne (h m' q hne hf)

theorem push_ms_length {L : AWorld} {m : MId} {p : PId} {d : ProcDef} :
    (L.push m p d).ms.length = L.ms.length := by simp [AWorld.push]

theorem push_gps_length {L : AWorld} {m : MId} {p : PId} {d : ProcDef} :
    (L.push m p d).gps.length = L.gps.length := by simp [AWorld.push]

theorem sim_mMul (m : MId) (res p1 p2 : PId) :
    SimA (CanDef m res) (mMul m res p1 p2) (aMul m res p1 p2) (fun L _ L' => Frame m L L') := by
  apply SimA.pre
  intro L0 h0
  refine SimA.bind ((sim_assertSame p1 [p2]).weaken (fun _ _ => trivial) (fun _ _ _ _ _ hq => hq))
    fun L1 _ h1 => ?_
  subst h1
  refine SimA.bind (sim_newGP.weaken (fun _ _ => trivial) (fun _ _ _ _ _ hq => hq))
    fun L2 t1 h2 => ?_
  obtain ⟨_, rfl⟩ := h2
  refine SimA.bind (sim_newGP.weaken (fun _ _ => trivial) (fun _ _ _ _ _ hq => hq))
    fun L3 a h3 => ?_
  obtain ⟨_, rfl, rfl⟩ := h3
  have hres := h0.2.lt
  refine SimA.bind ((sim_mFmul m a p2 (.meanOf m p1)).weaken (fun L hL => ?_)
    (fun _ _ _ _ _ hq => hq)) fun L4 _ h4 => ?_
  · obtain ⟨_, rfl, rfl⟩ := hL
    exact ⟨h0.1, fresh_new_self _ _⟩
  obtain ⟨_, rfl, rfl⟩ := h4
  refine SimA.bind (sim_newGP.weaken (fun _ _ => trivial) (fun _ _ _ _ _ hq => hq))
    fun L5 b h5 => ?_
  obtain ⟨_, rfl⟩ := h5
  refine SimA.bind ((sim_mFmul m b p1 (.meanOf m p2)).weaken (fun L hL => ?_)
    (fun _ _ _ _ _ hq => hq)) fun L6 _ h6 => ?_
  · obtain ⟨_, rfl, rfl⟩ := hL
    exact ⟨by simpa [push_ms_length] using h0.1, fresh_new_self _ _⟩
  obtain ⟨_, rfl, rfl⟩ := h6
  refine SimA.bind ((sim_mSum m L2.gps.length _ _).weaken (fun L hL => ?_)
    (fun _ _ _ _ _ hq => hq)) fun L7 _ h7 => ?_
  · obtain ⟨_, rfl⟩ := hL
    refine ⟨by simpa [push_ms_length] using h0.1, fresh_push (fresh_new (fresh_push (fresh_new
      (fresh_new_self _ _)) (.inr ?_))) (.inr ?_)⟩
    · simp
    · simp [push_gps_length]
  obtain ⟨_, rfl⟩ := h7
  refine SimA.bind (sim_newGP.weaken (fun _ _ => trivial) (fun _ _ _ _ _ hq => hq))
    fun L8 t2 h8 => ?_
  obtain ⟨_, rfl⟩ := h8
  refine SimA.bind ((sim_rem m t2 p1 p2).weaken (fun L hL => ?_) (fun _ _ _ _ _ hq => hq))
    fun L9 _ h9 => ?_
  · obtain ⟨_, rfl, rfl⟩ := hL
    exact ⟨by simpa [push_ms_length] using h0.1, fresh_new_self _ _⟩
  · obtain ⟨_, rfl, rfl⟩ := h9
    refine (sim_mSum m res _ _).weaken (fun L hL => ?_) (fun L _ L' hL _ hq => ?_)
    · obtain ⟨_, rfl⟩ := hL
      refine ⟨by simpa [push_ms_length] using h0.1, fresh_push (fresh_new (fresh_push (fresh_push
        (fresh_new (fresh_push (fresh_new (fresh_new h0.2)) (.inr ?_))) (.inr ?_)) (.inr ?_)))
        (.inr ?_)⟩ <;> simp [push_gps_length] <;> omega
    · obtain ⟨_, rfl⟩ := hL
      subst hq
      exact frame_new.trans (frame_new.trans (frame_push.trans (frame_new.trans (frame_push.trans
        (frame_push.trans (frame_new.trans (frame_push.trans frame_push)))))))

/-! ## Loops -/

/-- A loop over distinct measures that defines `res` in each. -/
theorem sim_forM {res : PId} {f : MId → M Unit} {af : MId → AM Unit} {I : MId → AWorld → Prop}
    (hI : ∀ m L L', I m L → Ext L L' → I m L')
    (hf : ∀ m, SimA (fun L => CanDef m res L ∧ I m L) (f m) (af m) (fun L _ L' => Frame m L L')) :
    ∀ ms : List MId, ms.Nodup →
      SimA (fun L => ∀ m ∈ ms, CanDef m res L ∧ I m L) (ms.forM f) (ms.forM af)
        (fun _ _ _ => True) := by
  intro ms
  induction ms with
  | nil => intro _; exact (SimA.pure ()).weaken (fun _ h => h) (fun _ _ _ _ _ _ => trivial)
  | cons m ms ih =>
    intro hnd
    rw [List.nodup_cons] at hnd
    change SimA _ (f m >>= fun _ => ms.forM f) (af m >>= fun _ => ms.forM af) _
    refine SimA.bind ((hf m).weaken (fun L hL => hL m (by simp)) (fun _ _ _ _ _ hq => hq))
      fun L0 _ h0 => ?_
    refine (ih hnd.2).weaken (fun L hL m' hm' => ?_) (fun _ _ _ _ _ _ => trivial)
    obtain ⟨⟨hlt, hfr⟩, hi⟩ := h0 m' (by simp [hm'])
    exact ⟨⟨hL.1.ms_len hlt, hL.2 m' res (by rintro rfl; exact hnd.1 hm') hfr⟩, hI _ _ _ hi hL.1⟩

theorem sim_unary {f : MId → PId → PId → M Unit} {d : ProcDef} {p : PId}
    (hf : ∀ m res, SimA (CanDef m res) (f m res p) (aDefine m res d)
      (fun L _ L' => L' = L.push m res d)) :
    SimA (fun _ => True) (gpUnary f p) (aUnary d p) (fun _ _ _ => True) := by
  refine SimA.bind sim_newGP fun L0 res _ => ?_
  refine SimA.bind ((sim_measuresOf p).weaken (fun _ _ => trivial) (fun _ _ _ _ _ hq => hq))
    fun L1 ms h1 => ?_
  obtain ⟨_, rfl, rfl⟩ := h1
  apply SimA.pre
  rintro L2 ⟨_, rfl, hms⟩
  intro w L hr wf hL
  subst hL
  have hnd := wf.gps_nodup _ _ hms
  have hloop := sim_forM (res := L0.gps.length) (I := fun _ _ => True) (f := fun m => f m _ p)
    (af := fun m => aDefine m _ d) (fun _ _ _ _ _ => trivial)
    (fun m => (hf m _).weaken (fun L hL => hL.1) (fun L _ L' _ _ hq => by rw [hq]; exact frame_push))
    ms hnd
  have hall := SimA.bind (R := fun _ _ _ => True) hloop fun L3 _ _ =>
    (SimA.pure L0.gps.length).weaken (fun _ h => h) (fun _ _ _ _ _ _ => trivial)
  refine hall w _ hr wf (fun m hm => ⟨⟨?_, fresh_new_self _ _⟩, trivial⟩)
  obtain ⟨a, ha, _⟩ := wf.gps_mem _ _ hms m hm
  exact (List.getElem?_eq_some_iff.1 ha).1

theorem sim_mapM_measuresOf (ps : List PId) : SimA (fun _ => True) (ps.mapM measuresOf)
    (ps.mapM aMeasuresOf) (fun L ls L' => L' = L ∧ List.Forall₂ (fun p l => L.gps[p]? = some l) ps ls) := by
  induction ps with
  | nil =>
    exact (SimA.pure []).weaken (fun _ h => h) (fun L v L' _ _ hq => by
      obtain ⟨rfl, rfl⟩ := hq; exact ⟨rfl, .nil⟩)
  | cons p ps ih =>
    rw [List.mapM_cons, List.mapM_cons]
    refine SimA.bind (sim_measuresOf p) fun L0 l _ => ?_
    refine SimA.bind (ih.weaken (fun _ _ => trivial) (fun _ _ _ _ _ hq => hq)) fun L1 ls h1 => ?_
    refine (SimA.pure (l :: ls)).weaken (fun _ h => h) (fun L v L' hL _ hq => ?_)
    obtain ⟨_, rfl, hl⟩ := h1
    obtain ⟨_, rfl, hls⟩ := hL
    obtain ⟨rfl, rfl⟩ := hq
    exact ⟨rfl, .cons hl hls⟩

theorem sim_intersection (p : PId) (ps : List PId) : SimA (fun _ => True) (intersection p ps)
    (aIntersection p ps) (fun L s L' => L' = L ∧ (∃ l, L.gps[p]? = some l ∧
      s = l.filter (fun m => ps.all fun q => (L.gps[q]?.getD []).contains m)) ∧
      ∀ q ∈ ps, q < L.gps.length) := by
  refine SimA.bind (sim_assertSame p ps) fun L0 _ _ => ?_
  refine SimA.bind ((sim_measuresOf p).weaken (fun _ _ => trivial) (fun _ _ _ _ _ hq => hq))
    fun L1 l h1 => ?_
  obtain ⟨_, rfl⟩ := h1
  refine SimA.bind ((sim_mapM_measuresOf ps).weaken (fun _ _ => trivial) (fun _ _ _ _ _ hq => hq))
    fun L2 ls h2 => ?_
  obtain ⟨_, rfl, hl⟩ := h2
  refine (SimA.pure _).weaken (fun _ h => h) (fun L v L' hL _ hq => ?_)
  obtain ⟨_, rfl, hls⟩ := hL
  obtain ⟨rfl, rfl⟩ := hq
  refine ⟨rfl, ⟨l, hl, ?_⟩, ?_⟩
  · congr 1
    funext m
    clear hl
    induction hls with
    | nil => rfl
    | cons h _ ih => simp only [List.all_cons, ih, h, Option.getD_some]
  · intro q hq
    clear hl
    induction hls with
    | nil => simp at hq
    | cons h _ ih =>
      rcases List.mem_cons.1 hq with rfl | hq
      · exact (List.getElem?_eq_some_iff.1 h).1
      · exact ih hq

/-- The set of measures that processes have in common. -/
def common (L : AWorld) (p : PId) (ps : List PId) : List MId :=
  (L.gps[p]?.getD []).filter (fun m => ps.all fun q => (L.gps[q]?.getD []).contains m)

/-- A loop over a set of measures, in an unknown order. -/
theorem sim_iterate {res : PId} {f : MId → M Unit} {af : MId → AM Unit} {I : MId → AWorld → Prop}
    (hI : ∀ m L L', I m L → Ext L L' → I m L')
    (hf : ∀ m, SimA (fun L => CanDef m res L ∧ I m L) (f m) (af m) (fun L _ L' => Frame m L L'))
    (s ord : List MId) (hs : s.Nodup) :
    SimA (fun L => ∀ m ∈ s, CanDef m res L ∧ I m L) (iterate s ord f) (aIterate s ord af)
      (fun _ _ _ => True) := by
  unfold iterate aIterate
  refine SimA.ite_bool (fun hp => ?_) (fun _ => SimA.throw _)
  have hp := List.isPerm_iff.1 hp
  exact (sim_forM hI hf ord (hp.nodup_iff.2 hs)).weaken
    (fun L hL m hm => hL m (hp.mem_iff.1 hm)) (fun _ _ _ _ _ _ => trivial)

theorem common_nodup {L : AWorld} (wf : Wf L) (p : PId) (ps : List PId) : (common L p ps).Nodup := by
  apply List.Nodup.filter
  cases h : L.gps[p]? with
  | none => simp
  | some l => exact wf.gps_nodup p l h

theorem mem_common {L : AWorld} (wf : Wf L) {p : PId} {ps : List PId} {m : MId}
    (h : m ∈ common L p ps) : ∃ a, L.ms[m]? = some a ∧ ∀ q ∈ p :: ps, q ∈ a.ps := by
  simp only [common, List.mem_filter, List.all_eq_true, List.contains_eq_mem,
    decide_eq_true_eq] at h
  have key : ∀ q, m ∈ L.gps[q]?.getD [] → ∃ a, L.ms[m]? = some a ∧ q ∈ a.ps := by
    intro q hq
    cases hg : L.gps[q]? with
    | none => rw [hg] at hq; simp at hq
    | some l => rw [hg] at hq; exact wf.gps_mem q l hg m hq
  obtain ⟨a, ha, hp⟩ := key p h.1
  refine ⟨a, ha, fun q hq => ?_⟩
  rcases List.mem_cons.1 hq with rfl | hq
  · exact hp
  · obtain ⟨a', ha', hq'⟩ := key q (h.2 q hq)
    rw [ha] at ha'; cases ha'
    exact hq'

/-- Operations that combine several processes, in all measures that these have in common. -/
theorem sim_group {f : MId → PId → M Unit} {af : MId → PId → AM Unit} {p : PId} {ps : List PId}
    (hf : ∀ m res, SimA (fun L => CanDef m res L ∧ RefsOK L m (.cross (p :: ps))) (f m res) (af m res)
      (fun L _ L' => Frame m L L')) (ord : List MId) :
    SimA (fun _ => True)
      (do
        let res ← newGP
        let s ← intersection p ps
        iterate s ord (fun m => f m res)
        pure res)
      (do
        let res ← aNewGP
        let s ← aIntersection p ps
        aIterate s ord (fun m => af m res)
        pure res) (fun _ _ _ => True) := by
  refine SimA.bind sim_newGP fun L0 res _ => ?_
  refine SimA.bind ((sim_intersection p ps).weaken (fun _ _ => trivial) (fun _ _ _ _ _ hq => hq))
    fun L1 s h1 => ?_
  obtain ⟨_, rfl, rfl⟩ := h1
  apply SimA.pre
  rintro L2 ⟨_, rfl, ⟨l, hl, hs⟩, hps⟩
  intro w L hr wf hL
  subst hL
  have hs' : s = common { L0 with gps := L0.gps ++ [[]] } p ps := by
    rw [hs]; simp only [common, hl, Option.getD_some]
  have hnd : s.Nodup := by rw [hs']; exact common_nodup wf p ps
  have hloop := sim_iterate (res := L0.gps.length) (I := fun m L => m < L.ms.length ∧
      RefsOK L m (.cross (p :: ps)))
    (f := fun m => f m _) (af := fun m => af m _) (fun m L L' hi ext => ⟨ext.ms_len hi.1, ?_⟩)
    (fun m => (hf m _).weaken (fun L hL => ⟨hL.1, hL.2.2⟩) (fun L _ L' _ _ hq => hq)) s ord hnd
  · have hall := SimA.bind (R := fun _ _ _ => True) hloop fun L3 _ _ =>
      (SimA.pure L0.gps.length).weaken (fun _ h => h) (fun _ _ _ _ _ _ => trivial)
    refine hall w _ hr wf (fun m hm => ?_)
    rw [hs'] at hm
    obtain ⟨a, ha, hq⟩ := mem_common wf hm
    have hlt := (List.getElem?_eq_some_iff.1 ha).1
    refine ⟨⟨hlt, fresh_new_self _ _⟩, hlt, fun a' ha' q hq' => ?_⟩
    rw [ha] at ha'; cases ha'
    exact hq q hq'
  · intro a' ha' q hq
    have ha := List.getElem?_eq_getElem hi.1
    exact ext.known ha ha' (hi.2 _ ha q hq)

theorem sim_gpAdd (p q : PId) (ord : List MId) :
    SimA (fun _ => True) (gpAdd p q ord) (aAdd p q ord) (fun _ _ _ => True) :=
  sim_group (f := fun m res => mSum m res p q) (af := fun m res => aSum m res p q) (fun m res =>
    (sim_mSum m res p q).weaken (fun _ hL => hL.1)
      (fun _ _ _ _ _ hq => by rw [hq]; exact frame_push)) ord

theorem sim_gpMul (p q : PId) (ord : List MId) :
    SimA (fun _ => True) (gpMul p q ord) (aGpMul p q ord) (fun _ _ _ => True) :=
  sim_group (f := fun m res => mMul m res p q) (af := fun m res => aMul m res p q) (fun m res =>
    (sim_mMul m res p q).weaken (fun _ hL => hL.1) (fun _ _ _ _ _ hq => hq)) ord

theorem sim_gpCross (ps : List PId) (ord : List MId) :
    SimA (fun _ => True) (gpCross ps ord) (aCross ps ord) (fun _ _ _ => True) := by
  cases ps with
  | nil => exact SimA.bind sim_newGP fun L0 res _ => SimA.throw _
  | cons p ps =>
    exact sim_group (f := fun m res => mCross m res (p :: ps))
      (af := fun m res => aDefine m res (.cross (p :: ps))) (fun m res =>
      (sim_mCross m res (p :: ps)).weaken (fun _ hL => hL)
        (fun _ _ _ _ _ hq => by rw [hq]; exact frame_push)) ord

/-! ## Measures, names, contexts -/

theorem fresh_measure_ms {L : AWorld} {a : AMeas} (m : MId) :
    (L.ms ++ [a])[m]? = if m = L.ms.length then some a else L.ms[m]? := by
  rw [List.getElem?_append]
  split
  · next h => rw [if_neg (by omega)]
  · next h =>
    rw [List.getElem?_singleton]
    by_cases hm : m = L.ms.length
    · simp [hm]
    · rw [if_neg (by omega), if_neg hm, List.getElem?_eq_none (by omega)]

theorem sim_newMeasure : SimA (fun _ => True) newMeasure aNewMeasure
    (fun L v L' => v = L.ms.length ∧ L' = { L with ms := L.ms ++ [({} : AMeas)] }) := by
  intro w L hr wf _
  set L' : AWorld := { L with ms := L.ms ++ [({} : AMeas)] } with hL'
  have hms : ∀ m : MId, L'.ms[m]? = if m = L.ms.length then some {} else L.ms[m]? :=
    fun m => fresh_measure_ms m
  have st := wf.ms.stable
  have ext : Ext L L' := by
    refine ⟨fun m a ha => ⟨a, ?_, rfl, rfl, [], rfl⟩, fun p l hl => ⟨[], by simpa using hl⟩⟩
    rw [hms, if_neg (by have := (List.getElem?_eq_some_iff.1 ha).1; omega)]; exact ha
  have st' : Stable L' := by
    refine ⟨fun m a ha => ?_, fun m a ha => ?_⟩
    · rw [hms] at ha
      split at ha
      · cases ha; intro u hu; cases hu
      · exact st.base_lt m a ha
    · rw [hms] at ha
      split at ha
      · cases ha; simp [AMeas.ps, knownOf]
      · exact st.nodup m a ha
  refine .inl ⟨L.ms.length, { w with ms := w.ms ++ [{}] }, L', ?_, rfl,
    ⟨by simp [hr.len, hL'], ?_, hr.gps, hr.default⟩, ?_, ext, rfl, rfl⟩
  · rw [← hr.len]; rfl
  · intro m s a hs ha
    rw [hms] at ha
    by_cases hm : m = L.ms.length
    · rw [if_pos hm] at ha; cases ha
      have : (w.ms ++ [({} : MState)])[m]? = some {} := by rw [hm, ← hr.len]; simp
      rw [this] at hs; cases hs
      refine ⟨rfl, rfl, rfl, rfl, rfl, rfl, ?_, ?_, ?_, ?_, rfl, rfl, rfl⟩ <;>
        simp [LazyMat.find, LazyVec.find]
    · rw [if_neg hm] at ha
      have hlt := (List.getElem?_eq_some_iff.1 ha).1
      have hs' : w.ms[m]? = some s := by
        rw [← hs, List.getElem?_append_left (by rw [hr.len]; exact hlt)]
      have hr0 := hr.meas m s a hs' ha
      exact { hr0 with
        kstore := fun i j k hf => ext.kernel st st' _ _ _ _ (hr0.kstore i j k hf)
        mstore := fun i k hf => ext.mean st st' _ _ _ (hr0.mstore i k hf) }
  · have hlen : L'.ms.length = L.ms.length + 1 := by simp [hL']
    refine ⟨?_, ?_, ?_, wf.gps_nodup, ?_, ?_, ?_⟩
    · intro m a ha
      rw [hms] at ha
      split at ha
      · cases ha
        refine ⟨?_, fun _ => rfl, ?_, by simp [AMeas.ps, knownOf], trivial, by simp⟩
        · intro u hu; cases hu
        · intro u hu; cases hu
      · have h0 := wf.ms m a ha
        refine { h0 with base_sub := fun u hu => ?_, def_ok := fun e he => ?_ }
        · obtain ⟨b, hb, hsub⟩ := h0.base_sub u hu
          obtain ⟨b', hb', _⟩ := ext.meas _ _ hb
          exact ⟨b', hb', fun p hp => ext.known hb hb' (hsub p hp)⟩
        · obtain ⟨h1, h2⟩ := h0.def_ok e he
          exact ⟨(ext.mean st st' _ _).isSome h1, (ext.kernel st st' _ _ _).isSome h2⟩
    · intro m a ha p hp
      rw [hms] at ha
      split at ha
      · cases ha; simp [AMeas.ps, knownOf] at hp
      · exact wf.mem_gps m a ha p hp
    · intro p l hl m hm
      obtain ⟨a, ha, hp⟩ := wf.gps_mem p l hl m hm
      obtain ⟨a', ha', _⟩ := ext.meas _ _ ha
      exact ⟨a', ha', ext.known ha ha' hp⟩
    · intro m hm
      rw [hlen]; have := wf.default m hm; omega
    · intro m a ha m' hm'
      rw [hlen]
      rw [hms] at ha
      split at ha
      · cases ha; cases hm'
      · have := wf.prevDefault m a ha m' hm'; omega
    · intro m a ha
      rw [hms] at ha
      split at ha
      · cases ha; simp [NamesOK]
      · exact wf.names m a ha

theorem foldl_modify (x : MId) : ∀ (ps : List PId) (g : List (List MId)), ps.Nodup → ∀ p : PId,
    (ps.foldl (fun g p => g.modify p (· ++ [x])) g)[p]? =
      if p ∈ ps then g[p]?.map (· ++ [x]) else g[p]? := by
  intro ps
  induction ps with
  | nil => intro g _ p; simp
  | cons q ps ih =>
    intro g hnd p
    rw [List.nodup_cons] at hnd
    rw [List.foldl_cons, ih _ hnd.2]
    simp only [List.getElem?_modify, List.mem_cons]
    by_cases hqp : q = p
    · subst hqp
      simp [hnd.1]
    · have : p ≠ q := fun h => hqp h.symm
      by_cases hp : p ∈ ps <;> simp [hp, hqp, this]

theorem sim_condition (m : MId) (obs : Obs) :
    SimA (fun _ => True) (condition m obs) (aCondition m obs) (fun L v L' => v = L.ms.length ∧
      ∃ a, L.ms[m]? = some a ∧ L' = L.cond m a obs) := by
  intro w L hr wf _
  cases ha : L.ms[m]? with
  | none =>
    refine .inr ⟨.dangling, w, L, ?_, by simp [aCondition, ha], hr, wf, Ext.refl L⟩
    have hn : w.ms[m]? = none := by
      rw [List.getElem?_eq_none_iff] at ha ⊢; rw [hr.len]; exact ha
    show EStateM.bind (getMeas m) _ w = _
    simp [EStateM.bind, getMeas, hn]
  | some a =>
    have hlt := (List.getElem?_eq_some_iff.1 ha).1
    obtain ⟨s, hs⟩ : ∃ s, w.ms[m]? = some s :=
      ⟨_, List.getElem?_eq_getElem (by rw [hr.len]; exact hlt)⟩
    have hrs := hr.meas m s a hs ha
    set L' := L.cond m a obs with hL'
    set b : AMeas := { base := some ⟨m, obs⟩, basePs := a.ps } with hb
    have hms : ∀ m' : MId, L'.ms[m']? = if m' = L.ms.length then some b else L.ms[m']? :=
      fun m' => fresh_measure_ms m'
    have st := wf.ms.stable
    have hnd := st.nodup m a ha
    have hgps : ∀ p : PId, L'.gps[p]? =
        if p ∈ a.ps then L.gps[p]?.map (· ++ [L.ms.length]) else L.gps[p]? :=
      fun p => foldl_modify _ _ _ hnd p
    have ext : Ext L L' := by
      refine ⟨fun m a ha => ⟨a, ?_, rfl, rfl, [], rfl⟩, fun p l hl => ?_⟩
      · rw [hms, if_neg (by have := (List.getElem?_eq_some_iff.1 ha).1; omega)]; exact ha
      · rw [hgps]
        split
        · exact ⟨[L.ms.length], by rw [hl]; rfl⟩
        · exact ⟨[], by simpa using hl⟩
    have hbps : b.ps = a.ps := by simp [hb, AMeas.ps, knownOf]
    have st' : Stable L' := by
      refine ⟨fun m' a' ha' => ?_, fun m' a' ha' => ?_⟩
      · rw [hms] at ha'
        split at ha'
        · next h => cases ha'; intro u hu; cases hu; rw [h]; exact hlt
        · exact st.base_lt m' a' ha'
      · rw [hms] at ha'
        split at ha'
        · cases ha'; rw [hbps]; exact hnd
        · exact st.nodup m' a' ha'
    -- the concrete run
    let t : MState := {
      ps := s.ps, pids := s.pids
      means := ({} : LazyVec MExpr URule).addRule s.pids ⟨m, obs⟩
      kernels := ({} : LazyMat KExpr URule LRule RRule).addRule s.pids ⟨m, obs⟩ }
    have hforM : ∀ (ps : List PId) (w : World) (x : MId),
        (ps.forM fun p => modify fun w => { w with gps := w.gps.modify p (· ++ [x]) } : M Unit) w =
          .ok () { w with gps := ps.foldl (fun g p => g.modify p (· ++ [x])) w.gps } := by
      intro ps
      induction ps with
      | nil => intro w x; rfl
      | cons p ps ih =>
        intro w x
        show (ps.forM _ : M Unit) _ = _
        rw [ih]
        rfl
    have hmod : ∀ (l : List MState) (x : MState) (f : MState → MState),
        (l ++ [x]).modify l.length f = l ++ [f x] := by
      intro l x f
      induction l with
      | nil => rfl
      | cons y l ih => simp [ih]
    have hrun : condition m obs w = .ok w.ms.length { w with
        ms := w.ms ++ [t]
        gps := s.ps.foldl (fun g p => g.modify p (· ++ [w.ms.length])) w.gps } := by
      simp only [condition, Bind.bind, EStateM.bind, getMeas_ok hs, newMeasure, get, getThe,
        MonadStateOf.get, EStateM.get, set, EStateM.set, MonadStateOf.set, modMeas, modify, modifyGet,
        MonadStateOf.modifyGet, EStateM.modifyGet, Pure.pure, EStateM.pure, hmod]
      have := hforM s.ps { w with ms := w.ms ++ [t] } w.ms.length
      simp only [modify, modifyGet, MonadStateOf.modifyGet] at this
      rw [this]
    refine .inl ⟨L.ms.length, { w with
        ms := w.ms ++ [t]
        gps := s.ps.foldl (fun g p => g.modify p (· ++ [w.ms.length])) w.gps }, L',
      by rw [← hr.len]; exact hrun, by simp [aCondition, ha, hL'],
      ⟨by simp [hr.len, hL', AWorld.cond], ?_, ?_, hr.default⟩, ?_, ext, rfl, a, ha, rfl⟩
    · intro m' s' a' hs' ha'
      rw [hms] at ha'
      by_cases hm : m' = L.ms.length
      · rw [if_pos hm] at ha'; cases ha'
        have : (w.ms ++ [t])[m']? = some t := by rw [hm, ← hr.len]; simp
        simp only [this, Option.some.injEq] at hs'
        subst hs'
        refine ⟨?_, ?_, ?_, ?_, rfl, rfl, ?_, ?_, ?_, ?_, rfl, rfl, rfl⟩
        · rw [hbps, ← hrs.ps]
        · rw [hbps, ← hrs.pids]
        · simp [t, hb, LazyMat.addRule, hrs.pids]
        · simp [t, hb, LazyVec.addRule, hrs.pids]
        · simp [t, LazyMat.addRule, LazyMat.find]
        · simp [t, LazyVec.addRule, LazyVec.find]
        · simp [hb]
        · simp [hb]
      · rw [if_neg hm] at ha'
        have hlt := (List.getElem?_eq_some_iff.1 ha').1
        have hs'' : w.ms[m']? = some s' := by
          rw [← hs', List.getElem?_append_left (by rw [hr.len]; exact hlt)]
        have hr0 := hr.meas m' s' a' hs'' ha'
        exact { hr0 with
          kstore := fun i j k hf => ext.kernel st st' _ _ _ _ (hr0.kstore i j k hf)
          mstore := fun i k hf => ext.mean st st' _ _ _ (hr0.mstore i k hf) }
    · show s.ps.foldl _ w.gps = _
      rw [hrs.ps, hr.gps, hr.len]; rfl
    · have hlen : L'.ms.length = L.ms.length + 1 := by simp [hL', AWorld.cond]
      refine ⟨?_, ?_, ?_, ?_, ?_, ?_, ?_⟩
      · intro m' a' ha'
        rw [hms] at ha'
        split at ha'
        · next hm' =>
          cases ha'
          refine ⟨?_, ?_, ?_, by rw [hbps]; exact hnd, trivial, by simp [hb]⟩
          · intro u hu; cases hu; rw [hm']; exact hlt
          · intro h; cases h
          · intro u hu; cases hu
            refine ⟨a, ?_, fun p hp => hp⟩
            rw [hms, if_neg (Nat.ne_of_lt hlt)]; exact ha
        · have h0 := wf.ms m' a' ha'
          refine { h0 with base_sub := fun u hu => ?_, def_ok := fun e he => ?_ }
          · obtain ⟨b, hb, hsub⟩ := h0.base_sub u hu
            obtain ⟨b', hb', _⟩ := ext.meas _ _ hb
            exact ⟨b', hb', fun p hp => ext.known hb hb' (hsub p hp)⟩
          · obtain ⟨h1, h2⟩ := h0.def_ok e he
            exact ⟨(ext.mean st st' _ _).isSome h1, (ext.kernel st st' _ _ _).isSome h2⟩
      · intro m' a' ha' p hp
        rw [hms] at ha'
        split at ha'
        · next hm' =>
          cases ha'
          rw [hbps] at hp
          obtain ⟨l, hl, _⟩ := wf.mem_gps m a ha p hp
          refine ⟨l ++ [L.ms.length], by rw [hgps, if_pos hp, hl]; rfl, by simp [hm']⟩
        · obtain ⟨l, hl, hm⟩ := wf.mem_gps m' a' ha' p hp
          obtain ⟨l', hl'⟩ := ext.gps p l hl
          exact ⟨_, hl', by simp [hm]⟩
      · intro p l hl m' hm'
        have old : ∀ l0, L.gps[p]? = some l0 → m' ∈ l0 → ∃ c, L'.ms[m']? = some c ∧ p ∈ c.ps := by
          intro l0 h0 hm0
          obtain ⟨c, hc, hp⟩ := wf.gps_mem p l0 h0 m' hm0
          obtain ⟨c', hc', _⟩ := ext.meas _ _ hc
          exact ⟨c', hc', ext.known hc hc' hp⟩
        rw [hgps] at hl
        split at hl
        · next hp =>
          cases h0 : L.gps[p]? with
          | none => rw [h0] at hl; simp at hl
          | some l0 =>
            rw [h0] at hl; simp only [Option.map_some, Option.some.injEq] at hl; subst hl
            rcases List.mem_append.1 hm' with h | h
            · exact old l0 h0 h
            · rw [List.mem_singleton] at h
              exact ⟨b, by rw [hms, if_pos h], by rw [hbps]; exact hp⟩
        · exact old l hl hm'
      · intro p l hl
        rw [hgps] at hl
        split at hl
        · cases h0 : L.gps[p]? with
          | none => rw [h0] at hl; simp at hl
          | some l0 =>
            rw [h0] at hl; simp only [Option.map_some, Option.some.injEq] at hl; subst hl
            rw [List.nodup_append]
            refine ⟨wf.gps_nodup p l0 h0, by simp, fun x hx y hy => ?_⟩
            rw [List.mem_singleton] at hy
            rintro rfl
            obtain ⟨c, hc, _⟩ := wf.gps_mem p l0 h0 x hx
            have := (List.getElem?_eq_some_iff.1 hc).1
            omega
        · exact wf.gps_nodup p l hl
      · intro m' hm'
        rw [hlen]; have := wf.default m' hm'; omega
      · intro m' a' ha' m'' hm''
        rw [hlen]
        rw [hms] at ha'
        split at ha'
        · cases ha'; cases hm''
        · have := wf.prevDefault m' a' ha' m'' hm''; omega
      · intro m' a' ha'
        rw [hms] at ha'
        split at ha'
        · cases ha'; simp [NamesOK, hb]
        · exact wf.names m' a' ha'

/-- Changes of a measure that do not touch its processes. -/
structure Inert (f : AMeas → AMeas) : Prop where
  base : ∀ a, (f a).base = a.base
  basePs : ∀ a, (f a).basePs = a.basePs
  defs : ∀ a, (f a).defs = a.defs

/-- The state with one measure changed. -/
def AWorld.mod (L : AWorld) (m : MId) (f : AMeas → AMeas) : AWorld :=
  { L with ms := L.ms.modify m f }

theorem mod_ms {L : AWorld} {m : MId} {f : AMeas → AMeas} (m' : MId) :
    (L.mod m f).ms[m']? = if m = m' then L.ms[m']?.map f else L.ms[m']? := by
  simp only [AWorld.mod, List.getElem?_modify]
  split <;> simp

theorem inert_ext {L : AWorld} {m : MId} {f : AMeas → AMeas} (hf : Inert f) : Ext L (L.mod m f) := by
  refine ⟨fun m' a ha => ?_, fun p l hl => ⟨[], by simpa [AWorld.mod] using hl⟩⟩
  rw [mod_ms]
  split
  · exact ⟨f a, by rw [ha]; rfl, hf.base a, hf.basePs a, [], hf.defs a⟩
  · exact ⟨a, ha, rfl, rfl, [], rfl⟩

theorem inert_ps {f : AMeas → AMeas} (hf : Inert f) (a : AMeas) : (f a).ps = a.ps := by
  simp [AMeas.ps, hf.basePs, hf.defs]

theorem inert_of {L : AWorld} {m m' : MId} {f : AMeas → AMeas} (hf : Inert f) {a' : AMeas}
    (h : (L.mod m f).ms[m']? = some a') : ∃ a, L.ms[m']? = some a ∧ a'.base = a.base ∧
      a'.basePs = a.basePs ∧ a'.defs = a.defs ∧ a'.ps = a.ps ∧ (a' = a ∨ (m = m' ∧ a' = f a)) := by
  rw [mod_ms] at h
  split at h
  · next hm =>
    cases ha : L.ms[m']? with
    | none => rw [ha] at h; simp at h
    | some a =>
      rw [ha] at h; simp only [Option.map_some, Option.some.injEq] at h; subst h
      exact ⟨a, rfl, hf.base a, hf.basePs a, hf.defs a, inert_ps hf a, .inr ⟨hm, rfl⟩⟩
  · exact ⟨a', h, rfl, rfl, rfl, rfl, .inl rfl⟩

theorem inert_stable {L : AWorld} {m : MId} {f : AMeas → AMeas} (hf : Inert f) (st : Stable L) :
    Stable (L.mod m f) := by
  refine ⟨fun m' a' ha' => ?_, fun m' a' ha' => ?_⟩
  · obtain ⟨a, ha, hb, _⟩ := inert_of hf ha'
    rw [hb]; exact st.base_lt m' a ha
  · obtain ⟨a, ha, _, _, _, hps, _⟩ := inert_of hf ha'
    rw [hps]; exact st.nodup m' a ha

theorem Wf.inert {L : AWorld} (wf : Wf L) {m : MId} {f : AMeas → AMeas} (hf : Inert f)
    (hn : ∀ a, L.ms[m]? = some a → NamesOK (f a))
    (hd : ∀ a, L.ms[m]? = some a → ∀ m', (f a).prevDefault = some m' → m' < L.ms.length) :
    Wf (L.mod m f) := by
  have ext : Ext L (L.mod m f) := inert_ext hf
  have st := wf.ms.stable
  have st' : Stable (L.mod m f) := inert_stable hf st
  have hlen : (L.mod m f).ms.length = L.ms.length := by simp [AWorld.mod]
  refine ⟨?_, ?_, ?_, wf.gps_nodup, ?_, ?_, ?_⟩
  · intro m' a' ha'
    obtain ⟨a, ha, hb, hbp, hdef, hps, _⟩ := inert_of hf ha'
    have h0 := wf.ms m' a ha
    refine ⟨by rw [hb]; exact h0.base_lt, by rw [hb, hbp]; exact h0.base_none, ?_,
      by rw [hps]; exact h0.nodup, by rw [hbp, hdef]; exact h0.inScope, ?_⟩
    · rw [hb, hbp]
      intro u hu
      obtain ⟨b, hb, hsub⟩ := h0.base_sub u hu
      obtain ⟨b', hb', _⟩ := ext.meas _ _ hb
      exact ⟨b', hb', fun p hp => ext.known hb hb' (hsub p hp)⟩
    · rw [hdef]
      intro e he
      obtain ⟨h1, h2⟩ := h0.def_ok e he
      exact ⟨(ext.mean st st' _ _).isSome h1, (ext.kernel st st' _ _ _).isSome h2⟩
  · intro m' a' ha' p hp
    obtain ⟨a, ha, _, _, _, hps, _⟩ := inert_of hf ha'
    exact wf.mem_gps m' a ha p (by rw [← hps]; exact hp)
  · intro p l hl m' hm'
    obtain ⟨a, ha, hp⟩ := wf.gps_mem p l hl m' hm'
    obtain ⟨a', ha', _⟩ := ext.meas _ _ ha
    exact ⟨a', ha', ext.known ha ha' hp⟩
  · intro m' hm'; rw [hlen]; exact wf.default m' hm'
  · intro m' a' ha' m'' hm''
    rw [hlen]
    obtain ⟨a, ha, _, _, _, _, h | ⟨rfl, h⟩⟩ := inert_of hf ha'
    · rw [h] at hm''; exact wf.prevDefault m' a ha m'' hm''
    · rw [h] at hm''; exact hd a ha m'' hm''
  · intro m' a' ha'
    obtain ⟨a, ha, _, _, _, _, h | ⟨rfl, h⟩⟩ := inert_of hf ha'
    · rw [h]; exact wf.names m' a ha
    · rw [h]; exact hn a ha

/-- Corresponding changes of a measure object and a measure of the specification machine that do not
touch processes. -/
theorem Rel.inert {w : World} {L : AWorld} (hr : Rel w L) (wf : Wf L) {m : MId}
    {g : MState → MState} {f : AMeas → AMeas} (hf : Inert f)
    (hg : ∀ s, (g s).ps = s.ps ∧ (g s).pids = s.pids ∧ (g s).means = s.means ∧
      (g s).kernels = s.kernels)
    (hfg : ∀ s a, w.ms[m]? = some s → L.ms[m]? = some a → RelM L m s a →
      (g s).gpsByName = (f a).gpsByName ∧ (g s).namesByGp = (f a).namesByGp ∧
        (g s).prevDefault = (f a).prevDefault) :
    Rel { w with ms := w.ms.modify m g } (L.mod m f) := by
  have ext : Ext L (L.mod m f) := inert_ext hf
  have st := wf.ms.stable
  have st' : Stable (L.mod m f) := inert_stable hf st
  refine ⟨by simp [hr.len, AWorld.mod], ?_, hr.gps, hr.default⟩
  intro m' s' a' hs' ha'
  obtain ⟨a, ha, hb, hbp, hdef, hps, hcase⟩ := inert_of hf ha'
  simp only [List.getElem?_modify] at hs'
  cases hs : w.ms[m']? with
  | none => simp [hs] at hs'
  | some s =>
    have h0 := hr.meas m' s a hs ha
    rw [mod_ms, ha] at ha'
    by_cases hm : m = m'
    · subst hm
      simp only [hs, if_true, Option.map_eq_map, Option.map_some, Option.some.injEq] at hs'
      subst hs'
      simp only [if_true, Option.map_some, Option.some.injEq] at ha'
      subst ha'
      obtain ⟨g1, g2, g3, g4⟩ := hg s
      obtain ⟨f1, f2, f3⟩ := hfg s a hs ha h0
      exact ⟨by rw [g1, hps]; exact h0.ps, by rw [g2, hps]; exact h0.pids,
        by rw [g4, hb, hbp]; exact h0.krules, by rw [g3, hb, hbp]; exact h0.mrules,
        by rw [g4, hbp, hdef]; exact h0.left, by rw [g4, hbp, hdef]; exact h0.right,
        fun i j k hk => ext.kernel st st' _ _ _ _ (h0.kstore i j k (by rw [← g4]; exact hk)),
        fun i k hk => ext.mean st st' _ _ _ (h0.mstore i k (by rw [← g3]; exact hk)),
        by rw [g4, hdef]; exact h0.kdiag, by rw [g3, hdef]; exact h0.mdiag, f1, f2, f3⟩
    · simp only [hs, hm, if_false, Option.map_eq_map, Option.map_some, Option.some.injEq] at hs'
      subst hs'
      rw [if_neg hm] at ha'
      simp only [Option.some.injEq] at ha'
      subst ha'
      exact { h0 with
        kstore := fun i j k hk => ext.kernel st st' _ _ _ _ (h0.kstore i j k hk)
        mstore := fun i k hk => ext.mean st st' _ _ _ (h0.mstore i k hk) }

theorem Rel.setDefault {w : World} {L : AWorld} (hr : Rel w L) (x : Option MId) :
    Rel { w with default := x } { L with default := x } :=
  ⟨hr.len, fun m s a hs ha => by
    refine RelM.congr ?_ (hr.meas m s a hs ha); rfl, hr.gps, rfl⟩

theorem Wf.setDefault {L : AWorld} (wf : Wf L) {x : Option MId}
    (h : ∀ m, x = some m → m < L.ms.length) : Wf { L with default := x } :=
  ⟨WfMs.congr (L := L) rfl wf.ms, wf.mem_gps, wf.gps_mem, wf.gps_nodup, h, wf.prevDefault, wf.names⟩

theorem ext_setDefault {L : AWorld} {x : Option MId} : Ext L { L with default := x } :=
  ⟨fun _ a ha => ⟨a, ha, rfl, rfl, [], rfl⟩, fun _ l hl => ⟨[], by simpa using hl⟩⟩

/-- Both machines fail in the same way on a measure that does not exist. -/
theorem dangling {w : World} {L : AWorld} (hr : Rel w L) {m : MId} (h : L.ms[m]? = none) :
    getMeas m w = .error .dangling w ∧ aGetMeas m L = .error .dangling L := by
  have hn : w.ms[m]? = none := by
    rw [List.getElem?_eq_none_iff] at h ⊢; rw [hr.len]; exact h
  simp [getMeas, aGetMeas, hn, h]

theorem Rel.get {w : World} {L : AWorld} (hr : Rel w L) {m : MId} {a : AMeas}
    (ha : L.ms[m]? = some a) : ∃ s, w.ms[m]? = some s ∧ RelM L m s a ∧ getMeas m w = .ok s w ∧
      aGetMeas m L = .ok a L := by
  have hlt := (List.getElem?_eq_some_iff.1 ha).1
  obtain ⟨s, hs⟩ : ∃ s, w.ms[m]? = some s :=
    ⟨_, List.getElem?_eq_getElem (by rw [hr.len]; exact hlt)⟩
  exact ⟨s, hs, hr.meas m s a hs ha, getMeas_ok hs, by simp [aGetMeas, ha]⟩

theorem sim_enter (m : MId) : SimA (fun _ => True) (enter m) (aEnter m) (fun _ _ _ => True) := by
  intro w L hr wf _
  cases ha : L.ms[m]? with
  | none =>
    obtain ⟨h1, h2⟩ := dangling hr ha
    refine .inr ⟨.dangling, w, L, ?_, ?_, hr, wf, Ext.refl L⟩
    · simp only [enter, Bind.bind, EStateM.bind, h1]
    · simp only [aEnter, Bind.bind, EStateM.bind, h2]
  | some a =>
    obtain ⟨s, hs, hrs, h1, h2⟩ := hr.get ha
    have hf : Inert (fun a : AMeas => { a with prevDefault := L.default }) :=
      ⟨fun _ => rfl, fun _ => rfl, fun _ => rfl⟩
    refine .inl ⟨(), _, _, by simp only [enter, Bind.bind, EStateM.bind, h1]; rfl,
      by simp only [aEnter, Bind.bind, EStateM.bind, h2]; rfl, ?_, ?_, ?_, trivial⟩
    · exact (hr.inert wf (g := fun s => { s with prevDefault := w.default }) hf
        (fun s => ⟨rfl, rfl, rfl, rfl⟩)
        (fun s a _ _ h => ⟨h.gpsByName, h.namesByGp, hr.default⟩)).setDefault (some m)
    · refine Wf.setDefault (L := L.mod m _) (wf.inert hf (fun a ha => wf.names m a ha) ?_) ?_
      · intro a _ m' hm'; exact wf.default m' hm'
      · intro m' hm'
        cases hm'
        simp only [AWorld.mod, List.length_modify]
        exact (List.getElem?_eq_some_iff.1 ha).1
    · exact (inert_ext hf).trans (ext_setDefault (L := L.mod m _))

theorem sim_exit (m : MId) : SimA (fun _ => True) (exit m) (aExit m) (fun _ _ _ => True) := by
  intro w L hr wf _
  cases ha : L.ms[m]? with
  | none =>
    obtain ⟨h1, h2⟩ := dangling hr ha
    refine .inr ⟨.dangling, w, L, ?_, ?_, hr, wf, Ext.refl L⟩
    · simp only [exit, Bind.bind, EStateM.bind, h1]
    · simp only [aExit, Bind.bind, EStateM.bind, h2]
  | some a =>
    obtain ⟨s, hs, hrs, h1, h2⟩ := hr.get ha
    refine .inl ⟨(), _, { L with default := a.prevDefault },
      by simp only [exit, Bind.bind, EStateM.bind, h1]; rfl,
      by simp only [aExit, Bind.bind, EStateM.bind, h2]; rfl, ?_, ?_, ext_setDefault, trivial⟩
    · rw [hrs.prevDefault]; exact hr.setDefault _
    · exact wf.setDefault (wf.prevDefault m a ha)

theorem namesOK_unname {a : AMeas} (h : NamesOK a) (p : PId) : NamesOK (a.unname p) ∧
    p ∉ (a.unname p).gpsByName.map (·.2) := by
  obtain ⟨h1, h2, h3⟩ := h
  unfold AMeas.unname
  cases hl : a.namesByGp.lookup p with
  | none =>
    refine ⟨⟨h1, h2, h3⟩, ?_⟩
    intro hc
    obtain ⟨⟨n, q⟩, hb, hq⟩ := List.mem_map.1 hc
    simp only at hq; subst hq
    rw [List.lookup_eq_none_iff] at hl
    have := hl (q, n) (by rw [h1]; exact List.mem_map.2 ⟨(n, q), hb, rfl⟩)
    simp at this
  | some old =>
    have hmem : (old, p) ∈ a.gpsByName := by
      have : (p, old) ∈ a.namesByGp := by
        clear h1
        generalize a.namesByGp = l at hl
        induction l with
        | nil => simp at hl
        | cons b l ih =>
          obtain ⟨x, y⟩ := b
          simp only [List.lookup] at hl
          split at hl
          · next hx => simp only [beq_iff_eq] at hx; subst hx; cases hl; simp
          · exact List.mem_cons_of_mem _ (ih hl)
      rw [h1] at this
      obtain ⟨⟨n, q⟩, hb, hq⟩ := List.mem_map.1 this
      simp only [Prod.swap, Prod.mk.injEq] at hq
      obtain ⟨rfl, rfl⟩ := hq
      exact hb
    have hiff : ∀ b ∈ a.gpsByName, (b.1 = old ↔ b.2 = p) := by
      intro b hb
      constructor
      · intro h
        have := List.inj_on_of_nodup_map h2 hb hmem h
        rw [this]
      · intro h
        have := List.inj_on_of_nodup_map h3 hb hmem h
        rw [this]
    refine ⟨⟨?_, ?_, ?_⟩, ?_⟩
    · simp only [h1, List.filter_map]
      congr 1
      apply List.filter_congr
      intro b hb
      simp only [Function.comp, Prod.fst_swap]
      have := hiff b hb
      rw [Bool.eq_iff_iff]
      simp only [bne_iff_ne, ne_eq]
      tauto
    · exact h2.sublist ((List.filter_sublist).map _)
    · exact h3.sublist ((List.filter_sublist).map _)
    · intro hc
      obtain ⟨b, hb, hq⟩ := List.mem_map.1 hc
      rw [List.mem_filter] at hb
      have := (hiff b hb.1).2 hq
      simp [this] at hb

theorem unname_inert (p : PId) : Inert (fun a => AMeas.unname a p) := by
  refine ⟨fun a => ?_, fun a => ?_, fun a => ?_⟩ <;>
  · simp only [AMeas.unname]
    split <;> rfl

theorem unname_prevDefault (a : AMeas) (p : PId) : (a.unname p).prevDefault = a.prevDefault := by
  simp only [AMeas.unname]; split <;> rfl

/-- The effect of the first half of `Measure.name` on a measure object. -/
def MState.unname (s : MState) (p : PId) : MState :=
  match s.namesByGp.lookup p with
  | some old =>
    { s with
      gpsByName := s.gpsByName.filter (fun b => b.1 != old)
      namesByGp := s.namesByGp.filter (fun b => b.1 != p) }
  | none => s

theorem modify_id_of {α : Type} {l : List α} {i : ℕ} {x : α} {f : α → α} (h : l[i]? = some x)
    (hf : f x = x) : l.modify i f = l := by
  apply List.ext_getElem?
  intro j
  rw [List.getElem?_modify]
  by_cases hij : i = j
  · subst hij; simp [h, hf]
  · simp [hij]

theorem lookup_none_notMem {a : AMeas} {n : String} (h : (a.gpsByName.lookup n).isSome = false) :
    n ∉ a.gpsByName.map (·.1) := by
  intro hc
  obtain ⟨b, hb, rfl⟩ := List.mem_map.1 hc
  rw [Option.isSome_eq_false_iff, Option.isNone_iff_eq_none, List.lookup_eq_none_iff] at h
  have := h b hb
  simp at this

theorem sim_setName (m : MId) (p : PId) (n : String) :
    SimA (fun _ => True) (setName m p n) (aSetName m p n) (fun L _ L' => Frame m L L') := by
  intro w L hr wf _
  cases ha : L.ms[m]? with
  | none =>
    obtain ⟨h1, h2⟩ := dangling hr ha
    refine .inr ⟨.dangling, w, L, ?_, ?_, hr, wf, Ext.refl L⟩
    · simp only [setName, Bind.bind, EStateM.bind, h1]
    · simp only [aSetName, Bind.bind, EStateM.bind, h2]
  | some a =>
    obtain ⟨s, hs, hrs, h1, h2⟩ := hr.get ha
    -- after the first half
    let w1 : World := { w with ms := w.ms.modify m (fun s => s.unname p) }
    let L1 : AWorld := L.mod m (fun a => a.unname p)
    have hr1 : Rel w1 L1 := by
      refine hr.inert wf (unname_inert p) (fun s => ?_) (fun s a _ _ h => ?_)
      · simp only [MState.unname]; split <;> exact ⟨rfl, rfl, rfl, rfl⟩
      · simp only [MState.unname, AMeas.unname, h.namesByGp]
        cases a.namesByGp.lookup p with
        | some old => exact ⟨by simp [h.gpsByName], rfl, h.prevDefault⟩
        | none => exact ⟨h.gpsByName, h.namesByGp, h.prevDefault⟩
    have wf1 : Wf L1 := wf.inert (unname_inert p) (fun a ha => (namesOK_unname (wf.names m a ha) p).1)
      (fun a ha m' hm' => by
        rw [unname_prevDefault] at hm'; exact wf.prevDefault m a ha m' hm')
    have ext1 : Ext L L1 := inert_ext (unname_inert p)
    have ha1 : L1.ms[m]? = some (a.unname p) := by
      show (L.mod m _).ms[m]? = _
      rw [mod_ms, if_pos rfl, ha]; rfl
    obtain ⟨s1, hs1, hrs1, h1', h2'⟩ := hr1.get ha1
    have hrun : setName m p n w = (do
        let s ← getMeas m
        if (s.gpsByName.lookup n).isSome then throw .runtime
        else
          modMeas m (fun s => { s with
            gpsByName := (n, p) :: s.gpsByName
            namesByGp := (p, n) :: s.namesByGp }) : M Unit) w1 := by
      have hsplit : setName m p n w = (do
          match s.namesByGp.lookup p with
          | some old =>
            modMeas m (fun s => { s with
              gpsByName := s.gpsByName.filter (fun b => b.1 != old)
              namesByGp := s.namesByGp.filter (fun b => b.1 != p) })
          | none => pure ()
          let s ← getMeas m
          if (s.gpsByName.lookup n).isSome then throw .runtime
          else
            modMeas m (fun s => { s with
              gpsByName := (n, p) :: s.gpsByName
              namesByGp := (p, n) :: s.namesByGp }) : M Unit) w := by
        unfold setName
        change EStateM.bind (getMeas m) _ w = _
        simp only [EStateM.bind, h1]
        rfl
      rw [hsplit]
      cases hl : s.namesByGp.lookup p with
      | none =>
        have : w1 = w := by
          show ({ w with ms := _ } : World) = w
          rw [modify_id_of hs (by simp [MState.unname, hl])]
        rw [this]
      | some old =>
        have : w1 = { w with ms := w.ms.modify m (fun s => { s with
              gpsByName := s.gpsByName.filter (fun b => b.1 != old)
              namesByGp := s.namesByGp.filter (fun b => b.1 != p) }) } := by
          show ({ w with ms := _ } : World) = _
          congr 1
          apply List.ext_getElem?
          intro j
          rw [List.getElem?_modify, List.getElem?_modify]
          by_cases hj : m = j
          · subst hj; simp [hs, MState.unname, hl]
          · simp [hj]
        rw [this]; rfl
    have harun : aSetName m p n L = (do
        let a ← aGetMeas m
        if (a.gpsByName.lookup n).isSome then throw .runtime
        else
          aModMeas m (fun a => { a with
            gpsByName := (n, p) :: a.gpsByName
            namesByGp := (p, n) :: a.namesByGp }) : AM Unit) L1 := by
      unfold aSetName
      change EStateM.bind (aGetMeas m) _ L = _
      simp only [EStateM.bind, h2]
      rfl
    rw [hrun, harun]
    simp only [Bind.bind, EStateM.bind, h1', h2', hrs1.gpsByName]
    cases hn : ((a.unname p).gpsByName.lookup n).isSome with
    | true => exact .inr ⟨.runtime, w1, L1, rfl, rfl, hr1, wf1, ext1⟩
    | false =>
      have hf : Inert (fun a : AMeas => { a with
            gpsByName := (n, p) :: a.gpsByName
            namesByGp := (p, n) :: a.namesByGp }) := ⟨fun _ => rfl, fun _ => rfl, fun _ => rfl⟩
      refine .inl ⟨(), _, _, rfl, rfl, ?_, ?_, ext1.trans (inert_ext hf), ?_⟩
      · exact hr1.inert wf1 hf (fun s => ⟨rfl, rfl, rfl, rfl⟩)
          (fun s a _ _ h => ⟨by simp [h.gpsByName], by simp [h.namesByGp], h.prevDefault⟩)
      · refine wf1.inert hf (fun b hb => ?_) (fun b hb m' hm' => wf1.prevDefault m b hb m' hm')
        rw [ha1] at hb; cases hb
        obtain ⟨⟨hn1, hn2, hn3⟩, hn4⟩ := namesOK_unname (wf.names m a ha) p
        refine ⟨by simp [hn1, Prod.swap], ?_, ?_⟩
        · simp only [List.map_cons, List.nodup_cons]
          exact ⟨lookup_none_notMem hn, hn2⟩
        · simp only [List.map_cons, List.nodup_cons]
          exact ⟨hn4, hn3⟩
      · intro m' q _ hq
        exact hq

theorem sim_gpName (p : PId) (n : String) :
    SimA (fun _ => True) (gpName p n) (aGpName p n) (fun _ _ _ => True) := by
  refine SimA.bind (sim_measuresOf p) fun L0 ms _ => ?_
  suffices h : ∀ ms : List MId, SimA (fun _ => True) (ms.forM fun m => setName m p n)
      (ms.forM fun m => aSetName m p n) (fun _ _ _ => True) from
    (h ms).weaken (fun _ _ => trivial) (fun _ _ _ _ _ _ => trivial)
  intro ms
  induction ms with
  | nil => exact (SimA.pure ()).weaken (fun _ h => h) (fun _ _ _ _ _ _ => trivial)
  | cons m ms ih =>
    change SimA _ (setName m p n >>= fun _ => ms.forM fun m => setName m p n)
      (aSetName m p n >>= fun _ => ms.forM fun m => aSetName m p n) _
    exact SimA.bind (sim_setName m p n) fun L1 _ _ =>
      ih.weaken (fun _ _ => trivial) (fun _ _ _ _ _ _ => trivial)

theorem sim_addGP (m : MId) (mean : MExpr) (kernel : KExpr) (left : LRule) (right : Option RRule) :
    SimA (fun _ => True) (addGP m mean kernel left right) (aAddGP m mean kernel left)
      (fun _ _ _ => True) := by
  intro w L hr wf _
  cases ha : L.ms[m]? with
  | none =>
    obtain ⟨h1, h2⟩ := dangling hr ha
    refine .inr ⟨.dangling, w, L, ?_, ?_, hr, wf, Ext.refl L⟩
    · simp only [addGP, Bind.bind, EStateM.bind, h1]
    · simp only [aAddGP, Bind.bind, EStateM.bind, h2]
  | some a =>
    obtain ⟨s, hs, hrs, h1, h2⟩ := hr.get ha
    have hcont := SimA.ite_bool (P := fun L' => L' = L) (Q := fun _ _ _ => True)
      (p := left.refs.all (a.ps.contains ·))
      (c := do
        let p ← newGP
        update m p mean kernel left none
        pure p)
      (ac := do
        let p ← aNewGP
        aDefine m p (.custom mean kernel left)
        pure p)
      (c' := throw .sched) (ac' := throw .sched) (fun hall => ?_) (fun _ => SimA.throw _)
    · have := hcont w L hr wf rfl
      simp only [addGP, aAddGP, Bind.bind, EStateM.bind, h1, h2, hrs.ps] at this ⊢
      exact this
    · refine SimA.bind (sim_newGP.weaken (fun _ _ => trivial) (fun _ _ _ _ _ hq => hq))
        fun L0 p h0 => ?_
      subst h0
      have h := sim_define (m := m) (res := p) (d := .custom mean kernel left) (right := none) rfl
        (look := pure (mean, kernel)) (fun L wf hm => Sim.pure _)
      simp only [pure_bind] at h
      refine SimA.bind (h.weaken (fun L hL => ?_) (fun _ _ _ _ _ hq => hq)) fun L1 _ _ =>
        (SimA.pure p).weaken (fun _ h => h) (fun _ _ _ _ _ _ => trivial)
      obtain ⟨_, rfl, rfl⟩ := hL
      refine ⟨(List.getElem?_eq_some_iff.1 ha).1, fresh_new_self _ _, ?_⟩
      intro a' ha' q hq
      change L0.ms[m]? = some a' at ha'
      rw [ha] at ha'; cases ha'
      simpa using List.all_eq_true.1 hall q hq

theorem sim_gpInit (mean : MExpr) (kernel : KExpr) (measure : Option MId) (name : Option String) :
    SimA (fun _ => True) (gpInit mean kernel measure name) (aInit mean kernel measure name)
      (fun _ _ _ => True) := by
  refine SimA.bind sim_newGP fun L0 p _ => ?_
  refine SimA.bind (Q := fun _ m L => CanDef m p L) (c := resolveMeasure measure)
    (ac := aResolve measure) ?_ fun L1 m h1 => ?_
  · cases measure with
    | some m =>
      rintro w L hr wf ⟨_, rfl, rfl⟩
      cases ha : ({ L0 with gps := L0.gps ++ [[]] } : AWorld).ms[m]? with
      | none =>
        obtain ⟨h1, h2⟩ := dangling hr ha
        refine .inr ⟨.dangling, w, _, ?_, ?_, hr, wf, Ext.refl _⟩
        · simp only [resolveMeasure, Bind.bind, EStateM.bind, h1]
        · simp only [aResolve, Bind.bind, EStateM.bind, h2]
      | some a =>
        obtain ⟨s, hs, hrs, h1, h2⟩ := hr.get ha
        refine .inl ⟨m, w, _, ?_, ?_, hr, wf, Ext.refl _, (List.getElem?_eq_some_iff.1 ha).1,
          fresh_new_self _ _⟩
        · simp only [resolveMeasure, Bind.bind, EStateM.bind, h1]; rfl
        · simp only [aResolve, Bind.bind, EStateM.bind, h2]; rfl
    | none =>
      rintro w L hr wf ⟨_, hp, hL⟩
      have hfresh : ∀ m, Fresh L m p := fun m => by rw [hp, hL]; exact fresh_new_self _ _
      clear hL
      have e1 : resolveMeasure none w = (match w.default with
        | some m => pure m
        | none => newMeasure : M MId) w := rfl
      have e2 : aResolve none L = (match L.default with
        | some m => pure m
        | none => aNewMeasure : AM MId) L := rfl
      rw [e1, e2, hr.default]
      cases hd : L.default with
      | some m => exact .inl ⟨m, w, L, rfl, rfl, hr, wf, Ext.refl _, wf.default m hd, hfresh m⟩
      | none =>
        rcases sim_newMeasure w L hr wf trivial with ⟨v, w', L', c1, c2, r, wf', ext, hv, hL⟩ | h
        · refine .inl ⟨v, w', L', c1, c2, r, wf', ext, ?_, ?_⟩
          · rw [hL, hv]; simp
          · rw [hL]; exact hfresh v
        · exact .inr h
  · refine SimA.bind ((sim_addIndependent m p mean kernel).weaken (fun L hL => hL.2)
      (fun _ _ _ _ _ hq => hq)) fun L2 _ h2 => ?_
    refine SimA.bind (Q := fun _ _ _ => True) (c := nameNew m p name) (ac := aNameNew m p name) ?_
      fun L3 _ _ => (SimA.pure p).weaken (fun _ h => h) (fun _ _ _ _ _ _ => trivial)
    cases name with
    | some n =>
      refine SimA.ite (fun _ => ?_) (fun _ => ?_)
      · exact (SimA.pure ()).weaken (fun _ h => h) (fun _ _ _ _ _ _ => trivial)
      · exact (sim_setName m p n).weaken (fun _ _ => trivial) (fun _ _ _ _ _ _ => trivial)
    | none =>
      exact (SimA.pure ()).weaken (fun _ h => h) (fun _ _ _ _ _ _ => trivial)

/-! ## All operations -/

theorem SimA.forget {α : Type} {c : M α} {ac : AM α} {Q : AWorld → α → AWorld → Prop}
    (h : SimA (fun _ => True) c ac Q) :
    SimA (fun _ => True) (do let _ ← c) (do let _ ← ac) (fun _ _ _ => True) :=
  SimA.bind h fun _ _ _ => (SimA.pure ()).weaken (fun _ h => h) (fun _ _ _ _ _ _ => trivial)

/-- Every operation does what its specification says. -/
theorem sim_op (o : Op) : SimA (fun _ => True) o.run o.spec (fun _ _ _ => True) := by
  cases o with
  | newMeasure => exact sim_newMeasure.forget
  | newGP => exact sim_newGP.forget
  | gp mean kernel measure nm => exact (sim_gpInit mean kernel measure nm).forget
  | addFn p f => exact (sim_unary fun m res => sim_mSumFn m res p f).forget
  | add p q ord => exact (sim_gpAdd p q ord).forget
  | scale p c => exact (sim_unary fun m res => sim_mScale m res p c).forget
  | fmul p f => exact (sim_unary fun m res => sim_mFmul m res p f).forget
  | mul p q ord => exact (sim_gpMul p q ord).forget
  | pre p t => exact (sim_unary fun m res => sim_mPre m res p t).forget
  | diff p d => exact (sim_unary (f := fun m res p => mDiff m res p d) fun m res => sim_mDiff m res p d).forget
  | cross ps ord => exact (sim_gpCross ps ord).forget
  | addGP m mean kernel left right => exact (sim_addGP m mean kernel left right).forget
  | call m p => exact (sim_callGP m p).forget
  | condition m obs => exact (sim_condition m obs).forget
  | getM m p => exact (sim_getM m p).forget
  | getK m p q => exact (sim_getK m p q).forget
  | name m p s =>
    exact (sim_setName m p s).weaken (fun _ h => h) (fun _ _ _ _ _ _ => trivial)
  | gpName p s => exact sim_gpName p s
  | enter m => exact sim_enter m
  | exit m => exact sim_exit m

/-- The heap represents a well-formed state of the specification machine. -/
structure Inv (w : World) (L : AWorld) : Prop where
  rel : Rel w L
  wf : Wf L

theorem inv_empty : Inv {} {} := by
  refine ⟨⟨rfl, ?_, rfl, rfl⟩, ⟨?_, ?_, ?_, ?_, ?_, ?_, ?_⟩⟩
  · intro m s a hs; simp at hs
  · intro m a ha; simp at ha
  · intro m a ha; simp at ha
  · intro p l hl; simp at hl
  · intro p l hl; simp at hl
  · intro m hm; cases hm
  · intro m a ha; simp at ha
  · intro m a ha; simp at ha

theorem Inv.after {w : World} {L : AWorld} (h : Inv w L) (o : Op) :
    Inv (o.after w) (o.specAfter L) ∧ Ext L (o.specAfter L) := by
  unfold Op.after Op.specAfter
  rcases sim_op o w L h.rel h.wf trivial with ⟨v, w', L', h1, h2, r, wf, e, _⟩ |
    ⟨e, w', L', h1, h2, r, wf, ex⟩
  · rw [h1, h2]; exact ⟨⟨r, wf⟩, e⟩
  · rw [h1, h2]; exact ⟨⟨r, wf⟩, ex⟩

/-- Programs of any length, with exceptions caught anywhere, do what their specification says. -/
theorem Inv.runOps {w : World} {L : AWorld} (h : Inv w L) (ops : List Op) :
    Inv (runOps ops w) (specOps ops L) ∧ Ext L (specOps ops L) := by
  induction ops generalizing w L with
  | nil => exact ⟨h, Ext.refl L⟩
  | cons o ops ih =>
    obtain ⟨h1, e1⟩ := h.after o
    obtain ⟨h2, e2⟩ := ih h1
    exact ⟨h2, e1.trans e2⟩

end Stheno
