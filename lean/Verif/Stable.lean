import Verif.Returns

/-!
# Canonical random variables do not change

Running more operations does not change the canonical random variables of the processes and measures that a program
already has.
-/

namespace Stheno

open Matrix

section
variable {S : SO RV} {m : MId} {T T' : PId → Option (List RV)}

theorem Fn.vals_congr {g g' : PId → Input → Option (List RV)} {f : Fn} (h : ∀ n q, f = .meanOf n q → g q = g' q) (x : Input)
    (n : ℕ) : f.vals S g x n = f.vals S g' x n := by
  cases f with
  | user f => cases x <;> rfl
  | const c => rfl
  | meanOf k q => simp only [Fn.vals, h k q rfl]

theorem defVal_congr {r : PId} {g g' : PId → Input → Option (List RV)} {d : ProcDef} (hd : d.Elem)
    (h : ∀ q ∈ d.refs, g q = g' q) (hf : ∀ p n q, d = .fmul p (.meanOf n q) → g q = g' q) (hT : ∀ q ∈ d.refs, T q = T' q)
    (x : Input) : defVal S m r T g d x = defVal S m r T' g' d x := by
  cases d with
  | indep mean k => cases x <;> rfl
  | addFn p f =>
    have e : ∀ n, f.vals S g x n = f.vals S g' x n :=
      Fn.vals_congr (fun n q e => by subst e; exact (hd : False).elim) x
    simp only [defVal, h p (by simp [ProcDef.refs]), e]
  | fmul p f =>
    have e : ∀ n, f.vals S g x n = f.vals S g' x n := Fn.vals_congr (fun n q e => hf p n q (by rw [e])) x
    simp only [defVal, h p (by simp [ProcDef.refs]), e]
  | sum p q => simp only [defVal, h p (by simp [ProcDef.refs]), h q (by simp [ProcDef.refs])]
  | scale p c => simp only [defVal, h p (by simp [ProcDef.refs])]
  | pre p t => simp only [defVal, h p (by simp [ProcDef.refs])]
  | copy p => simp only [defVal, h p (by simp [ProcDef.refs])]
  | diff p d =>
    cases x with
    | num xs => rw [defVal, defVal, h p (by simp [ProcDef.refs])]
    | fdd => rfl
    | tup => rfl
  | rem p q =>
    cases x with
    | num xs => simp only [defVal, h p (by simp [ProcDef.refs]), h q (by simp [ProcDef.refs])]
    | fdd => rfl
    | tup => rfl
  | cross ps =>
    cases x with
    | num xs =>
      simp only [defVal]
      rw [mapM_congr fun p hp => congrFun (h p (by simpa [ProcDef.refs] using hp)) (.num xs)]
    | fdd q y =>
      simp only [defVal]
      split
      · next hq => exact hT q (by simpa [ProcDef.refs] using hq)
      · rfl
    | tup => rfl
  | custom => exact hd.elim

theorem valD_congr {base base' : PId → Input → Option (List RV)} {bp : List PId} (hb : ∀ p ∈ bp, base p = base' p) :
    (es : List (PId × ProcDef)) → (∀ q ∈ knownOf bp es, T q = T' q) → (∀ e ∈ es, e.2.Elem) → Scoped bp es →
      (∀ new r p n q old, es = new ++ (r, .fmul p (.meanOf n q)) :: old → q ∈ knownOf bp old) →
      ∀ p ∈ knownOf bp es, valD S m T base es p = valD S m T' base' es p
  | [], _, _, _, _, p, hp => by
    simp only [knownOf, List.map_nil, List.reverse_nil, List.append_nil] at hp
    funext x
    exact congrFun (hb p hp) x
  | (r, d) :: es, hT, he, hs, hf, p, hp => by
    have ih := valD_congr hb es (fun q hq => hT q (by rw [knownOf_cons]; simp [hq])) (fun e h => he e (by simp [h])) hs.2
      fun new r' p' n q old e => hf ((r, d) :: new) r' p' n q old (by rw [e]; rfl)
    funext x
    simp only [valD]
    split
    · refine defVal_congr (he (r, d) (by simp)) (fun q hq => ih q (hs.1 q hq)) (fun p' n q e => ?_) (fun q hq => hT q ?_) x
      · subst e
        exact ih q (hf [] r p' n q es rfl)
      · rw [knownOf_cons]; simp [hs.1 q hq]
    · next hpr =>
      rw [knownOf_cons] at hp
      rw [ih p (by simpa [hpr] using hp)]

end

/-- The second state has the measures of the first with the same definitions, and possibly more. -/
def AWorld.Extends (L L' : AWorld) : Prop := ∀ (m : MId) a, L.ms[m]? = some a →
  ∃ a', L'.ms[m]? = some a' ∧ a'.base = a.base ∧ a'.basePs = a.basePs ∧ a.defs <:+ a'.defs

/-- The processes that are observed. -/
def Obs.procs : Obs → List PId
  | .exact p _ _ _ => [p]
  | .pseudo pu p _ => [pu, p]

theorem SO.given_congr {S : SO RV} {F F' : PId → RF RV} {obs : Obs} (h : ∀ p ∈ obs.procs, F p = F' p) :
    S.given F obs = S.given F' obs := by
  cases obs with
  | exact p x noise y => rw [SO.given_exact, SO.given_exact, h p (by simp [Obs.procs])]
  | pseudo pu p o => rw [SO.given_pseudo', SO.given_pseudo', h pu (by simp [Obs.procs]), h p (by simp [Obs.procs])]

/-- Canonical random variables do not change. -/
theorem canon_stable {L L' : AWorld} (hL : L.Elem) (hL' : L'.Elem) (hx : L.Extends L')
    (ho : ∀ (m : MId) a u b, L.ms[m]? = some a → a.base = some u → L.ms[u.prior]? = some b → ∀ p ∈ u.obs.procs, p ∈ b.ps) :
    ∀ (m : MId) a, L.ms[m]? = some a → (canon L').S m = (canon L).S m ∧ ∀ p ∈ a.ps, (canon L').F m p = (canon L).F m p := by
  intro m
  induction m using Nat.strong_induction_on with
  | _ m ih =>
    intro a ha
    obtain ⟨a', ha', eb, ebp, new, ed⟩ := hx m a ha
    have wf := hL.wf m a ha
    have hS : (canon L').S m = (canon L).S m := by
      cases hu : a.base with
      | none => rw [canon_S_none (by rw [ha']; exact eb.trans hu), canon_S_none (by rw [ha]; exact hu)]
      | some u =>
        rw [canon_S_some hL'.wf ha' (eb.trans hu), canon_S_some hL.wf ha hu]
        obtain ⟨b, hb, _⟩ := wf.base_sub u hu
        obtain ⟨h1, h2⟩ := ih u.prior (wf.base_lt u hu) b hb
        rw [h1]
        exact SO.given_congr fun p hp => h2 p (ho m a u b ha hu hb p hp)
    refine ⟨hS, ?_⟩
    have hbase : ∀ p ∈ a.basePs, baseVal L' a' p = baseVal L a p := by
      intro p hp
      funext x
      unfold baseVal
      rw [eb, ebp]
      cases hu : a.base with
      | none => rfl
      | some u =>
        obtain ⟨b, hb, hsub⟩ := wf.base_sub u hu
        simp only [hp, if_true]
        rw [(ih u.prior (wf.base_lt u hu) b hb).2 p (hsub p hp)]
    have atom : ∀ x : Input, x.IsAtom → (∀ q ∈ a.ps, innerVals ((canon L').F m) x q = innerVals ((canon L).F m) x q) →
        ∀ p ∈ a.ps, (canon L').F m p x = (canon L).F m p x := by
      intro x hx hT p hp
      rw [canon_atom hL'.wf (.inl ha') hx, canon_atom hL.wf (.inl ha) hx, hS, ← ed, valD_skip]
      · exact congrFun (valD_congr hbase a.defs hT (hL.defs m a ha) wf.inScope
          (fun new r p n q old e => (hL.means m a new r p n q old ha e).2) p hp) x
      · refine not_mem_of_known (a := a') (hL'.wf m a' ha').nodup ed.symm ?_
        rw [ebp]
        exact hp
    suffices h : ∀ x, ∀ p ∈ a.ps, (canon L').F m p x = (canon L).F m p x from fun p hp => funext fun x => h x p hp
    intro x
    induction x using Input.ind with
    | num xs => exact atom (.num xs) trivial fun _ _ => rfl
    | fdd p y ih => exact atom (.fdd p y) trivial ih
    | tup xs ih =>
      intro p hp
      rw [canon_tup hL'.wf, canon_tup hL.wf, mapM_congr fun x hx => ih x hx p hp]

section
variable {G : Dom} {ops : List Op}

theorem AWorld.Seen.mem {b : AMeas} {ps : List PId} {p : PId} {z : Input} (h : AWorld.Seen G b ps p z) : p ∈ b.ps := by
  rcases h with ⟨_, _, h⟩ | ⟨new, old, qs, hd, _⟩
  · exact h
  · rw [AMeas.ps, mem_knownOf, hd]
    exact .inr (by simp)

/-- States that more operations lead to. -/
theorem extends_append (b t : List Op) : (specOps b {}).Extends (specOps (b ++ t) {}) := fun _ _ ha => ops_grow b t ha

/-- The processes that a tame program observes are in the measure that it conditions. -/
theorem Tame.observed {b : List Op} (ht : ∀ before m obs after, b = before ++ .condition m obs :: after →
      HasMeasure (runOps before {}) m → ObsFits G before m obs) (m : MId) (a : AMeas) (u : URule) (b' : AMeas)
    (ha : (specOps b {}).ms[m]? = some a) (hu : a.base = some u) (hb' : (specOps b {}).ms[u.prior]? = some b') :
    ∀ p ∈ u.obs.procs, p ∈ b'.ps := by
  intro p hp
  obtain ⟨before, after, e, hm, -, hps⟩ := base_from b m a u ha hu
  have ho := ht before u.prior u.obs after e hm
  have seen : ∀ q z, Observable G before u.prior q z → q ∈ b'.ps := fun q z hq => by
    rw [e] at hb'
    exact (seen_of hb' hq).mem
  cases hu' : u.obs with
  | exact q z noise y =>
    rw [hu'] at ho hp
    cases List.mem_singleton.1 hp
    exact seen _ _ ho.2.2.2
  | pseudo pu q o =>
    rw [hu'] at ho hp
    simp only [Obs.procs, List.mem_cons, List.not_mem_nil, or_false] at hp
    rcases hp with rfl | rfl
    · exact seen _ _ ho.2.2.1
    · exact seen _ _ ho.2.2.2

/-- **The random variables of a program do not change as it continues.** -/
theorem reading_stable {b t : List Op} (he : ∀ o ∈ b ++ t, o.Elem) (ht : ∀ before m obs after, b = before ++ .condition m obs :: after →
      HasMeasure (runOps before {}) m → ObsFits G before m obs) (m : MId) :
    (HasMeasure (runOps b {}) m → (canon (specOps (b ++ t) {})).S m = (canon (specOps b {})).S m) ∧
    ∀ p, Attached (runOps b {}) m p → (canon (specOps (b ++ t) {})).F m p = (canon (specOps b {})).F m p := by
  have key := canon_stable (elem_reach fun o ho => he o (by simp [ho])) (elem_reach he) (extends_append b t) (Tame.observed ht)
  refine ⟨fun hm => ?_, fun p hp => ?_⟩
  · have : m < (specOps b {}).ms.length := by rw [← (Inv.reach b).rel.len]; exact hm
    exact (key m _ (List.getElem?_eq_getElem this)).1
  · obtain ⟨a, ha, hpa⟩ := (Inv.reach b).attached.1 hp
    exact (key m a ha).2 p hpa

theorem attached_refs {b : List Op} {m : MId} {a : AMeas} (ha : (specOps b {}).ms[m]? = some a) {es es' : List (PId × ProcDef)} {r : PId}
    {d : ProcDef} (e : a.defs = es ++ (r, d) :: es') {p : PId} (hp : p ∈ d.refs) : Attached (runOps b {}) m p := by
  refine (Inv.reach b).attached.2 ⟨a, ha, ?_⟩
  have hsc := ((Inv.reach b).wf.ms m a ha).inScope
  rw [e] at hsc
  have := scoped_refs hsc rfl p hp
  rw [AMeas.ps, mem_knownOf, e]
  rw [mem_knownOf] at this
  exact this.imp_right fun h => by
    simp only [List.map_append, List.map_cons, List.mem_append, List.mem_cons]
    exact .inr (.inr h)

/-- Parts of tame programs are tame. -/
theorem Tame.pre {b t : List Op} (h : Tame G (b ++ t)) : Tame G b where
  elem o ho := h.elem o (by simp [ho])
  defs before o after e := h.defs before o (after ++ t) (by rw [e]; simp)
  obs before m obs after e := h.obs before m obs (after ++ t) (by rw [e]; simp)
  noise m obs ho := h.noise m obs (by simp [ho])
  smooth := by
    intro m a es r p d es' ha e
    obtain ⟨a', ha', _, _, new, ed⟩ := extends_append b t m a ha
    have hs := h.smooth m a' (new ++ es) r p d es' ha' (by rw [← ed, e]; simp)
    rw [(reading_stable h.elem (fun before m obs after e => h.obs before m obs (after ++ t) (by rw [e]; simp)) m).2 p
      (attached_refs ha e (by simp [ProcDef.refs]))] at hs
    exact hs

/-- A definition was there before the last operation, or that operation wrote it. -/
theorem defs_step {L : AWorld} (wf : Wf L) {o : Op} {m : MId} {a : AMeas} (ha : (o.specAfter L).ms[m]? = some a)
    {es es' : List (PId × ProcDef)} {e : PId × ProcDef} (hd : a.defs = es ++ e :: es') :
    (∃ a0 c, L.ms[m]? = some a0 ∧ a0.defs = c ++ e :: es') ∨
    ∃ a0 c, (L.ms[m]? = some a0 ∨ a0 = {}) ∧ (es ++ e :: c) <:+ (o.written L.gps.length m).reverse ∧ es' = c ++ a0.defs ∧
      a.basePs = a0.basePs := by
  by_cases hc : ∃ m obs, o = .condition m obs
  · obtain ⟨m', obs, rfl⟩ := hc
    left
    cases hb : L.ms[m']? with
    | none => rw [condition_spec_none hb] at ha; exact ⟨a, es, ha, hd⟩
    | some b =>
      rw [condition_spec hb] at ha
      change (L.ms ++ [_])[m]? = _ at ha
      rw [List.getElem?_append] at ha
      split at ha
      · exact ⟨a, es, ha, hd⟩
      · rw [List.getElem?_singleton] at ha
        split at ha
        · cases ha; simp at hd
        · cases ha
  · obtain ⟨L0, h0, D, hg, hsuf⟩ := op_within wf o fun m obs h => hc ⟨m, obs, h⟩
    have := hg m
    rw [ha] at this
    cases ha0 : L0.ms[m]? with
    | none => rw [ha0] at this; cases this
    | some a0 =>
      rw [ha0] at this
      simp only [Option.map_some, AMeas.core, Option.some.injEq, Prod.mk.injEq] at this
      obtain ⟨_, hbp, hdd⟩ := this
      have key : L.ms[m]? = some a0 ∨ a0 = ({} : AMeas) := by
        rcases h0 with h0 | h0
        · rw [h0] at ha0; exact .inl ha0
        · rw [h0, List.getElem?_append] at ha0
          split at ha0
          · exact .inl ha0
          · right
            rw [List.getElem?_singleton] at ha0
            split at ha0
            · exact (Option.some.inj ha0).symm
            · cases ha0
      rw [hdd] at hd
      have inold : ∀ c, a0.defs = c ++ e :: es' → ∃ a0 c, L.ms[m]? = some a0 ∧ a0.defs = c ++ e :: es' := by
        intro c h2
        rcases key with key | rfl
        · exact ⟨a0, c, key, h2⟩
        · simp at h2
      rcases List.append_eq_append_iff.1 hd with ⟨c, h1, h2⟩ | ⟨c, h1, h2⟩
      · exact .inl (inold c h2)
      · cases c with
        | nil => exact .inl (inold [] (by simpa using h2.symm))
        | cons x c =>
          simp only [List.cons_append, List.cons.injEq] at h2
          obtain ⟨rfl, h2⟩ := h2
          exact .inr ⟨a0, c, key, h1 ▸ hsuf m, h2, hbp⟩

/-- A further operation of a tame program only differentiates what is differentiable. -/
theorem Tame.smooth_snoc (h : Tame G ops) {o : Op} (ho : o.Elem)
    (hs : ∀ p d m, o = .diff p d → Attached (runOps ops {}) m p → 
      SmoothOn ((canon (specOps ops {})).F m p) d (G (runOps ops {}).gps.length)) :
    (specOps (ops ++ [o]) {}).Smooth G := by
  intro m a es r p d es' ha e
  have he : ∀ o' ∈ ops ++ [o], o'.Elem := fun o' h' => by
    rcases List.mem_append.1 h' with h' | h'
    · exact h.elem o' h'
    · rw [List.mem_singleton.1 h']; exact ho
  have stable := reading_stable he h.obs
  have ha' : (o.specAfter (specOps ops {})).ms[m]? = some a := by
    rw [specOps_append] at ha; exact ha
  rcases defs_step (Inv.reach ops).wf ha' e with ⟨a0, c, h0, hd⟩ | ⟨a0, c, h0, hsuf, rfl, hbp⟩
  · rw [(stable m).2 p (attached_refs h0 hd (by simp [ProcDef.refs]))]
    exact h.smooth m a0 c r p d es' h0 hd
  · have hin : (r, ProcDef.diff p d) ∈ o.written (specOps ops {}).gps.length m := by
      have := hsuf.subset (by simp : (r, ProcDef.diff p d) ∈ es ++ (r, ProcDef.diff p d) :: c)
      simpa using this
    have hod : o = .diff p d ∧ r = (runOps ops {}).gps.length := by
      rw [(Inv.reach ops).rel.gps]
      cases o <;> simp [Op.written] at hin
      obtain ⟨rfl, rfl, rfl⟩ := hin
      exact ⟨rfl, rfl⟩
    obtain ⟨rfl, rfl⟩ := hod
    have hc : c = [] := by
      have := hsuf.length_le
      simp [Op.written] at this
      exact List.length_eq_zero_iff.1 (by omega)
    subst hc
    have hsc := ((Inv.reach (ops ++ [.diff p d])).wf.ms m a ha).inScope
    rw [e] at hsc
    have hp := scoped_refs hsc rfl p (by simp [ProcDef.refs])
    rw [hbp] at hp
    have hat : Attached (runOps ops {}) m p := by
      rcases h0 with h0 | rfl
      · exact (Inv.reach ops).attached.2 ⟨a0, h0, hp⟩
      · simp [knownOf] at hp
    rw [(stable m).2 p hat]
    exact hs p d m rfl hat

end

end Stheno
