import Verif.Apart
import Verif.MoreNoise
import Verif.Post

/-!
# Programs with the same equations

A reading of a program is a reading of every program whose processes and posteriors are, up to the numbers of processes and measures, processes and posteriors of
the first. So the order in which a model is built does not matter, and neither do processes and measures that are not used.
-/

namespace Stheno

open Matrix

/-! ## Which operation made a process -/

/-- A new GP is attached to at most one measure. -/
theorem init_grown (mean : MExpr) (kernel : KExpr) (measure : Option MId) (name : Option String) (L : AWorld) :
    ∃ (L0 : AWorld) (m0 : MId) (D : MId → List (PId × ProcDef)), (L0.ms = L.ms ∨ L0.ms = L.ms ++ [({} : AMeas)]) ∧
      Grown D L0 (AM.after (aInit mean kernel measure name) L) ∧ ∀ m, m ≠ m0 → D m = [] := by
  unfold aInit
  rw [after_bind_ok (c := aNewGP) (L1 := L.new) (u := L.gps.length) rfl]
  have main : ∀ (m : MId) (L1 : AWorld), ∃ D : MId → List (PId × ProcDef), Grown D L1
      (AM.after (do
        aDefine m L.gps.length (.indep mean kernel)
        aNameNew m L.gps.length name
        pure L.gps.length : AM PId) L1) ∧ ∀ m', m' ≠ m → D m' = [] := by
    intro m L1
    rcases defines_define m L.gps.length (.indep mean kernel) L1 with h | ⟨e, h⟩
    · rw [after_bind_ok h, after_bind_pure]
      refine ⟨_, ((Grown.refl L1).push m L.gps.length (.indep mean kernel)).same (sameCore_nameNew m _ name _), fun m' e => ?_⟩
      simp [e]
    · rw [after_bind_error h]; exact ⟨_, Grown.refl _, fun _ _ => rfl⟩
  cases measure with
  | some m =>
    have : AM.after ((aResolve (some m)) >>= fun m => (do
        aDefine m L.gps.length (.indep mean kernel)
        aNameNew m L.gps.length name
        pure L.gps.length : AM PId)) L.new = AM.after (aGetMeas m >>= fun _ => (do
        aDefine m L.gps.length (.indep mean kernel)
        aNameNew m L.gps.length name
        pure L.gps.length : AM PId)) L.new := by
      show AM.after ((aGetMeas m >>= fun _ => pure m) >>= _) _ = _
      rw [bind_assoc]; rfl
    rw [this]
    rcases pure_getMeas m L.new with ⟨a, h⟩ | ⟨e, h⟩
    · rw [after_bind_ok h]
      obtain ⟨D, h1, h2⟩ := main m L.new
      exact ⟨L, m, D, .inl rfl, h1, h2⟩
    · rw [after_bind_error h]; exact ⟨L, m, _, .inl rfl, Grown.refl L, fun _ _ => rfl⟩
  | none =>
    cases hd : L.default with
    | some m =>
      have : aResolve none L.new = .ok m L.new := by
        show (match L.new.default with | some m => (pure m : AM MId) | none => aNewMeasure) L.new = _
        simp only [AWorld.new, hd]
        rfl
      rw [after_bind_ok this]
      obtain ⟨D, h1, h2⟩ := main m L.new
      exact ⟨L, m, D, .inl rfl, h1, h2⟩
    | none =>
      have : aResolve none L.new = .ok L.new.ms.length { L.new with ms := L.new.ms ++ [({} : AMeas)] } := by
        show (match L.new.default with | some m => (pure m : AM MId) | none => aNewMeasure) L.new = _
        simp only [AWorld.new, hd]
        rfl
      rw [after_bind_ok this]
      obtain ⟨D, h1, h2⟩ := main L.new.ms.length { L.new with ms := L.new.ms ++ [({} : AMeas)] }
      exact ⟨_, _, D, .inr rfl, h1, h2⟩

/-- A new GP is attached to one measure when it is made. -/
theorem gp_one {before : List Op} {o : Op} {mean : MExpr} {kernel : KExpr} (ho : o.makes = some (.indep mean kernel)) {m1 m2 : MId}
    (h1 : Attached (runOps (before ++ [o]) {}) m1 (runOps before {}).gps.length) (h2 : Attached (runOps (before ++ [o]) {}) m2 (runOps before {}).gps.length) : m1 = m2 := by
  cases o <;> simp only [Op.makes, reduceCtorEq, Option.some.injEq] at ho
  rename_i mean' kernel' measure name
  have iv := Inv.reach before
  have iv' := Inv.reach (before ++ [.gp mean' kernel' measure name])
  have hs : specOps (before ++ [.gp mean' kernel' measure name]) {} = AM.after (aInit mean' kernel' measure name) (specOps before {}) := by
    rw [specOps_append]
    show Op.specAfter _ _ = _
    rw [← after_spec]
    show AM.after (aInit mean' kernel' measure name >>= fun _ => pure ()) _ = _
    rw [after_bind_pure]
  obtain ⟨L0, m0, D, h0, hg, hD⟩ := init_grown mean' kernel' measure name (specOps before {})
  have key : ∀ m, Attached (runOps (before ++ [.gp mean' kernel' measure name]) {}) m (runOps before {}).gps.length → m = m0 := by
    intro m hm
    by_contra hne
    obtain ⟨a, ha, hp⟩ := iv'.attached.1 hm
    rw [hs] at ha
    have := hg m
    rw [ha, hD m hne] at this
    cases ha0 : L0.ms[m]? with
    | none => rw [ha0] at this; cases this
    | some a0 =>
      rw [ha0] at this
      simp only [Option.map_some, AMeas.core, Option.some.injEq, Prod.mk.injEq, List.nil_append] at this
      obtain ⟨_, hbp, hdd⟩ := this
      have hp0 : (runOps before {}).gps.length ∈ a0.ps := by
        rw [AMeas.ps, hbp, hdd] at hp; exact hp
      have key : (specOps before {}).ms[m]? = some a0 ∨ a0 = ({} : AMeas) := by
        rcases h0 with h0 | h0
        · rw [h0] at ha0; exact .inl ha0
        · rw [h0, List.getElem?_append] at ha0
          split at ha0
          · exact .inl ha0
          · right
            rw [List.getElem?_singleton] at ha0
            split at ha0
            · exact (Option.some.inj ha0).symm
            · cases ha0
      rcases key with key | rfl
      · obtain ⟨l, hl, _⟩ := iv.wf.mem_gps m a0 key _ hp0
        have := (List.getElem?_eq_some_iff.1 hl).1
        rw [iv.rel.gps] at this
        exact lt_irrefl _ this
      · simp [AMeas.ps, knownOf] at hp0
  exact (key m1 h1).trans (key m2 h2).symm

/-- Every definition was written by an operation that attached the process to the measure. -/
theorem defs_made (ops : List Op) (m : MId) (a : AMeas) (ha : (specOps ops {}).ms[m]? = some a) : ∀ e ∈ a.defs, ∃ before o after,
    ops = before ++ o :: after ∧ e ∈ o.written (runOps before {}).gps.length m ∧ Attached (runOps (before ++ [o]) {}) m e.1 := by
  induction ops using List.reverseRecOn generalizing m a with
  | nil => simp [specOps] at ha
  | append_singleton ops o ih =>
    have iv := Inv.reach ops
    have iv' := Inv.reach (ops ++ [o])
    have ha' := ha
    have ih' : ∀ a, (specOps ops {}).ms[m]? = some a → ∀ e ∈ a.defs, ∃ before o' after,
        ops ++ [o] = before ++ o' :: after ∧ e ∈ o'.written (runOps before {}).gps.length m ∧ Attached (runOps (before ++ [o']) {}) m e.1 := by
      intro a ha e he
      obtain ⟨before, o', after, e1, h1, h2⟩ := ih m a ha e he
      exact ⟨before, o', after ++ [o], by rw [e1]; simp, h1, h2⟩
    have hs : specOps (ops ++ [o]) {} = o.specAfter (specOps ops {}) := by
      rw [specOps_append]; rfl
    rw [hs] at ha
    by_cases hc : ∃ m obs, o = .condition m obs
    · obtain ⟨m', obs, rfl⟩ := hc
      cases hb : (specOps ops {}).ms[m']? with
      | none => rw [condition_spec_none hb] at ha; exact ih' a ha
      | some b =>
        rw [condition_spec hb] at ha
        change ((specOps ops {}).ms ++ [_])[m]? = _ at ha
        rw [List.getElem?_append] at ha
        split at ha
        · exact ih' a ha
        · rw [List.getElem?_singleton] at ha
          split at ha
          · cases ha; simp
          · cases ha
    · obtain ⟨L0, h0, D, hg, hsuf⟩ := op_within iv.wf o fun m obs h => hc ⟨m, obs, h⟩
      have := hg m
      rw [ha] at this
      cases ha0 : L0.ms[m]? with
      | none => rw [ha0] at this; cases this
      | some a0 =>
        rw [ha0] at this
        simp only [Option.map_some, AMeas.core, Option.some.injEq, Prod.mk.injEq] at this
        obtain ⟨_, _, hdd⟩ := this
        intro e he
        have he' := he
        rw [hdd, List.mem_append] at he
        rcases he with he | he
        · refine ⟨ops, o, [], rfl, ?_, iv'.attached.2 ⟨a, ha', ?_⟩⟩
          · rw [iv.rel.gps]
            simpa using (hsuf m).subset he
          · rw [AMeas.ps, mem_knownOf]
            exact .inr (List.mem_map_of_mem he')
        · have key : (specOps ops {}).ms[m]? = some a0 ∨ a0 = ({} : AMeas) := by
            rcases h0 with h0 | h0
            · rw [h0] at ha0; exact .inl ha0
            · rw [h0, List.getElem?_append] at ha0
              split at ha0
              · exact .inl ha0
              · right
                rw [List.getElem?_singleton] at ha0
                split at ha0
                · exact (Option.some.inj ha0).symm
                · cases ha0
          rcases key with key | rfl
          · exact ih' a0 key e he
          · simp at he

/-- Without products, an operation makes at most one process. -/
theorem written_makes {o : Op} (ho : ∀ p q ord, o ≠ .mul p q ord) {n : ℕ} {m : MId} {e : PId × ProcDef} (he : e ∈ o.written n m) : e.1 = n ∧ o.makes = some e.2 := by
  cases o <;> simp only [Op.written, List.mem_singleton, List.not_mem_nil] at he <;> first | exact he.elim | (subst he; exact ⟨rfl, rfl⟩) | exact (ho _ _ _ rfl).elim

/-- Without products, every definition is that of a process that an operation made and attached to the measure. -/
theorem Unmultiplied.made {ops : List Op} (hu : Unmultiplied ops) {m : MId} {a : AMeas} (ha : (specOps ops {}).ms[m]? = some a) {e : PId × ProcDef} (he : e ∈ a.defs) :
    ∃ before o, Makes ops before o e.1 e.2 ∧ Attached (runOps (before ++ [o]) {}) m e.1 := by
  obtain ⟨before, o, after, e1, h1, h2⟩ := defs_made ops m a ha e he
  obtain ⟨h3, h4⟩ := written_makes (fun p q ord h => hu p q ord (by rw [e1, h]; simp)) h1
  exact ⟨before, o, ⟨⟨⟨after, e1⟩, h3, m, h2⟩, h4⟩, h2⟩

/-- What a process is made of was in the measure before. -/
theorem Makes.refs_before {ops before : List Op} {o : Op} {r : PId} {d : ProcDef} (h : Makes ops before o r d) {m : MId} (ha : Attached (runOps (before ++ [o]) {}) m r) :
    ∀ q ∈ d.refs, Attached (runOps before {}) m q := by
  intro q hq
  have hw : o.written (runOps before {}).gps.length m = [] ++ (r, d) :: [] := by rw [Op.makes_written h.makes, h.id]; rfl
  obtain ⟨a, es, es', ha', hd, hk⟩ := written_attached hw ha
  have := scoped_refs ((Inv.reach (before ++ [o])).wf.ms m a ha').inScope hd q hq
  rw [hk] at this
  exact mem_members.1 (by simpa using this)

/-- A process has one definition. -/
theorem Makes.unique {ops b1 b2 : List Op} {o1 o2 : Op} {r : PId} {d1 d2 : ProcDef} (h1 : Makes ops b1 o1 r d1) (h2 : Makes ops b2 o2 r d2) : d1 = d2 := by
  obtain ⟨m, hm⟩ := h2.attached
  have hw : o2.written (runOps b2 {}).gps.length m = [] ++ (r, d2) :: [] := by rw [Op.makes_written h2.makes, h2.id]; rfl
  obtain ⟨a0, fs, fs', ha0, hd0, _⟩ := written_attached hw hm
  obtain ⟨after, e⟩ := h2.split
  obtain ⟨a, ha, _, hbp, t, ht⟩ := ops_grow (b2 ++ [o2]) after ha0
  have hd : a.defs = (t ++ fs) ++ (r, d2) :: fs' := by rw [← ht, hd0]; simp
  rw [show (b2 ++ [o2]) ++ after = ops by rw [e]; simp] at ha
  exact (h1.defs_eq ha hd).symm

/-- Without products, every process was made by an operation. -/
theorem Unmultiplied.made_attached {ops : List Op} (hu : Unmultiplied ops) : ∀ {m : MId} {p : PId}, Attached (runOps ops {}) m p → ∃ before o d, Makes ops before o p d := by
  have iv := Inv.reach ops
  intro m
  induction m using Nat.strong_induction_on with
  | _ m ih =>
    intro p hp
    obtain ⟨a, ha, hpa⟩ := iv.attached.1 hp
    rw [AMeas.ps, mem_knownOf] at hpa
    by_cases hd : p ∈ a.defs.map (·.1)
    · obtain ⟨e, he, rfl⟩ := List.mem_map.1 hd
      obtain ⟨before, o, mk, _⟩ := hu.made ha he
      exact ⟨before, o, e.2, mk⟩
    · have hr := hpa.resolve_right hd
      have h0 := iv.wf.ms m a ha
      cases hb : a.base with
      | none => rw [h0.base_none hb] at hr; simp at hr
      | some u =>
        obtain ⟨b, hb', hsub⟩ := h0.base_sub u hb
        exact ih u.prior (h0.base_lt u hb) (iv.attached.2 ⟨b, hb', hsub p hr⟩)

theorem attached_lt {ops : List Op} {m : MId} {p : PId} (h : Attached (runOps ops {}) m p) : p < (runOps ops {}).gps.length := by
  have iv := Inv.reach ops
  obtain ⟨a, ha, hp⟩ := iv.attached.1 h
  obtain ⟨l, hl, _⟩ := iv.wf.mem_gps m a ha p hp
  rw [iv.rel.gps]
  exact (List.getElem?_eq_some_iff.1 hl).1

theorem Makes.refs_lt {ops before : List Op} {o : Op} {r : PId} {d : ProcDef} (h : Makes ops before o r d) : ∀ q ∈ d.refs, q < r := by
  intro q hq
  obtain ⟨m, hm⟩ := h.attached
  rw [h.id]
  exact attached_lt (h.refs_before hm q hq)


/-! ## A process has the same values in all measures -/

/-- Definitions of elementary operations without products. -/
structure ProcDef.Simple (d : ProcDef) : Prop where
  elem : d.Elem
  linear : d.Linear

theorem Makes.simple {ops before : List Op} {o : Op} {r : PId} {d : ProcDef} (h : Makes ops before o r d) (he : ∀ o ∈ ops, o.Elem) : d.Simple := by
  obtain ⟨after, e⟩ := h.split
  have ho := he o (by rw [e]; simp)
  have hm := h.makes
  cases o <;> simp only [Op.makes, reduceCtorEq, Option.some.injEq] at hm <;> subst hm <;>
    first | exact ho.elim | exact ⟨ho, trivial⟩ | exact ⟨ho, Fn.Plain.fixed ho⟩ | exact ⟨trivial, Fn.Plain.fixed ho⟩

section
variable {V : Type} [AddCommGroup V] [Module ℝ V] {I J : Interp V}

omit [AddCommGroup V] [Module ℝ V] in
theorem RF.OK.ext {G H : RF V} (hG : G.OK) (hH : H.OK) (h : ∀ x, x.IsAtom → G x = H x) : G = H := by
  funext x
  induction x using Input.atomInd with
  | atom x hx => exact h x hx
  | tup xs ih =>
    rw [hG.tup, hH.tup]
    congr 1
    exact mapM_congr ih

theorem Fn.Fixed.fnAt {f : Fn} (hf : f.Fixed) (x : Input) (n : ℕ) : I.fnAt f x n = J.fnAt f x n := by
  cases f with
  | user => cases x <;> rfl
  | const => rfl
  | meanOf => exact hf.elim

/-- What a process is made of determines it, unless it is new. -/
theorem Interp.DefLaw.determines {lm : MId → PId → Option MExpr} {lk : MId → PId → PId → Option KExpr} {m m' : MId} {known known' : List PId} {r : PId}
    {d : ProcDef} (h : I.DefLaw lm lk m known r d) (h' : I.DefLaw lm lk m' known' r d) (hs : d.Simple) (hi : ∀ a k, d ≠ .indep a k)
    (ok : (I.F m r).OK) (ok' : (I.F m' r).OK) (hq : ∀ q ∈ d.refs, I.F m q = I.F m' q) : I.F m r = I.F m' r := by
  obtain ⟨he, hl⟩ := hs
  refine ok.ext ok' fun x hx => ?_
  cases d with
  | indep a k => exact (hi _ _ rfl).elim
  | custom a k l => exact he.elim
  | rem p q => exact hl.elim
  | addFn p f => rw [h x hx, h' x hx, hq p (by simp [ProcDef.refs])]
  | sum p q => rw [h x hx, h' x hx, hq p (by simp [ProcDef.refs]), hq q (by simp [ProcDef.refs])]
  | scale p c => rw [h x hx, h' x hx, hq p (by simp [ProcDef.refs])]
  | fmul p f => rw [h x hx, h' x hx, hq p (by simp [ProcDef.refs])]
  | pre p t => rw [h x hx, h' x hx, hq p (by simp [ProcDef.refs])]
  | copy p => rw [show I.F m r = I.F m p from h, show I.F m' r = I.F m' p from h', hq p (by simp [ProcDef.refs])]
  | diff p d =>
    cases x with
    | tup xs => exact hx.elim
    | fdd q x => rw [h.2.1, h'.2.1]
    | num xs => rw [h.1, h'.1, hq p (by simp [ProcDef.refs])]
  | cross ps =>
    cases x with
    | tup xs => exact hx.elim
    | num xs =>
      rw [h.1, h'.1]
      congr 1
      exact mapM_congr fun p hp => by rw [hq p hp]
    | fdd q x =>
      rw [h.2, h'.2]
      split
      · next e => rw [hq q e]
      · rfl

/-- A process has the same values in all measures it is in. -/
theorem Interp.Reads.steady {ops : List Op} (h : I.Reads ops) (he : ∀ o ∈ ops, o.Elem) (hu : Unmultiplied ops) :
    ∀ (p : PId) {m m' : MId}, Attached (runOps ops {}) m p → Attached (runOps ops {}) m' p → I.F m p = I.F m' p := by
  have iv := Inv.reach ops
  intro p
  induction p using Nat.strong_induction_on with
  | _ p ih =>
    intro m m' hm hm'
    obtain ⟨a, ha, hpa⟩ := iv.attached.1 hm
    obtain ⟨a', ha', hpa'⟩ := iv.attached.1 hm'
    obtain ⟨m0, a0, es, d, es', l1, l2, ha0, hd, hF, hps, hk⟩ := h.source m a ha p hpa
    obtain ⟨m1, a1, fs, d1, fs', l1', l2', ha1, hd1, hF1, hps1, hk1⟩ := h.source m' a' ha' p hpa'
    obtain ⟨before, o, mk, att⟩ := hu.made ha0 (e := (p, d)) (by rw [hd]; simp)
    obtain ⟨before1, o1, mk1, att1⟩ := hu.made ha1 (e := (p, d1)) (by rw [hd1]; simp)
    have e1 := mk1.defs_eq ha0 hd
    subst e1
    have law := h.laws.defs m0 a0 es p d es' ha0 hd
    have law1 := h.laws.defs m1 a1 fs p d fs' ha1 hd1
    rw [hF, hF1]
    by_cases hi : ∃ a k, d = .indep a k
    · obtain ⟨mean, k, rfl⟩ := hi
      have r1 : p ∈ a1.defs.map (·.1) := by rw [hd1]; simp
      obtain ⟨after, e⟩ := mk.split
      have e' : ops = (before ++ [o]) ++ after := by rw [e]; simp
      obtain ⟨a2, ha2, hr2⟩ := ops_defs_old (before ++ [o]) after att (by rw [← e']; exact ha1) r1
      have att2 : Attached (runOps (before ++ [o]) {}) m1 p := (Inv.reach (before ++ [o])).attached.2 ⟨a2, ha2, by
        rw [AMeas.ps, mem_knownOf]; exact .inr hr2⟩
      have := mk.id
      simp only at this
      rw [this] at att att2
      rw [gp_one mk.makes att att2]
    · refine law.determines law1 (mk.simple he) (fun a k e => hi ⟨a, k, e⟩) (h.ok _ _) (h.ok _ _) fun q hq => ?_
      have q0 := scoped_refs (iv.wf.ms m0 a0 ha0).inScope hd q hq
      have q1 := scoped_refs (iv.wf.ms m1 a1 ha1).inScope hd1 q hq
      refine ih q (mk.refs_lt q hq) (iv.attached.2 ⟨a0, ha0, ?_⟩) (iv.attached.2 ⟨a1, ha1, ?_⟩)
      · rw [AMeas.ps, hd]
        rw [mem_knownOf] at q0 ⊢
        exact q0.imp id fun h => by rw [List.map_append, List.map_cons]; simp [h]
      · rw [AMeas.ps, hd1]
        rw [mem_knownOf] at q1 ⊢
        exact q1.imp id fun h => by rw [List.map_append, List.map_cons]; simp [h]

/-! ## New processes are uncorrelated with all processes that are not made from them -/

/-- A new GP is uncorrelated, in the measure in which it is made, with all processes that are not made from it. -/
theorem Interp.Reads.fresh {ops : List Op} (h : I.Reads ops) (he : ∀ o ∈ ops, o.Elem) (hu : Unmultiplied ops) {before : List Op} {o : Op} {r : PId}
    {mean : MExpr} {k : KExpr} (hm : Makes ops before o r (.indep mean k)) {m : MId} (hr : Attached (runOps (before ++ [o]) {}) m r) {κ : PId → Prop} (hκ : ¬κ r)
    (hc : ∀ before o q d, Makes ops before o q d → κ q → ∀ p ∈ d.refs, κ p) :
    ∀ q, Attached (runOps ops {}) m q → κ q → (I.S m).Orth (I.F m r) (I.F m q) := by
  have iv := Inv.reach ops
  have hw : o.written (runOps before {}).gps.length m = [] ++ (r, .indep mean k) :: [] := by rw [Op.makes_written hm.makes, hm.id]; rfl
  obtain ⟨a0, fs, fs', ha0, hd0, _⟩ := written_attached hw hr
  obtain ⟨after, e⟩ := hm.split
  have e' : ops = (before ++ [o]) ++ after := by rw [e]; simp
  obtain ⟨a, ha, _, hbp, t, ht⟩ := ops_grow (before ++ [o]) after ha0
  rw [← e'] at ha
  have hd : a.defs = (t ++ fs) ++ (r, .indep mean k) :: fs' := by rw [← ht, hd0]; simp
  have law := h.laws.defs m a _ r _ fs' ha hd
  have main : ∀ es2 es1, a.defs = es1 ++ (es2 ++ (r, .indep mean k) :: fs') → ∀ q ∈ knownOf a.basePs (es2 ++ (r, .indep mean k) :: fs'), κ q →
      (I.S m).Orth (I.F m r) (I.F m q) := by
    intro es2
    induction es2 with
    | nil =>
      intro es1 _ q hq kq
      rw [List.nil_append, knownOf_cons, List.mem_append, List.mem_singleton] at hq
      rcases hq with hq | rfl
      · exact law.2.2 q hq
      · exact (hκ kq).elim
    | cons e es2 ih =>
      obtain ⟨r', d⟩ := e
      intro es1 hes q hq kq
      have ih := ih (es1 ++ [(r', d)]) (by rw [hes]; simp)
      rw [List.cons_append, knownOf_cons, List.mem_append, List.mem_singleton] at hq
      rcases hq with hq | rfl
      · exact ih q hq kq
      · have hes' : a.defs = es1 ++ (q, d) :: (es2 ++ (r, .indep mean k) :: fs') := by rw [hes]; rfl
        have law' := h.laws.defs m a es1 q d _ ha hes'
        obtain ⟨b1, o1, mk, _⟩ := hu.made ha (e := (q, d)) (by rw [hes']; simp)
        by_cases hi : ∃ a k, d = .indep a k
        · obtain ⟨mean', k', rfl⟩ := hi
          refine (law'.2.2 r ?_).symm
          rw [mem_knownOf]; right; simp
        have hs := mk.simple he
        intro x y vs ws hv hw v hv' w hw'
        refine law'.subspace (h.ok m q) (W := LinearMap.ker ((I.S m).C v)) ?_ (fun f w' hf hs => ?_) (fun a k e => hi ⟨a, k, e⟩)
          (fun a k l e => by have := hs.elem; simp only at this; rw [e] at this; exact this.elim) (fun p q e => by have := hs.linear; simp only at this; rw [e] at this; exact this.elim)
          (fun q' hq' x' vs' hv0 v0 hv0' => ?_) y ws hw w hw'
        · show (I.S m).C v I.one = 0
          rw [(I.S m).symm]; exact h.one_C m v
        · have h1 := hs.2 v
          have h2 : (fun t => (I.S m).C (f t) v) = fun _ => 0 := funext fun t => by rw [(I.S m).symm]; exact hf t
          rw [h2] at h1
          show (I.S m).C v w' = 0
          rw [(I.S m).symm]
          exact h1.unique (hasDerivAt_const 0 0)
        · exact ih q' (scoped_refs (iv.wf.ms m a ha).inScope hes' q' hq') (hc _ _ _ _ mk kq q' hq') _ _ _ _ hv hv0 _ hv' _ hv0'
  intro q hq kq
  obtain ⟨a', ha', hqa⟩ := iv.attached.1 hq
  rw [ha] at ha'; cases ha'
  exact main (t ++ fs) [] hd q (by rw [AMeas.ps, hd] at hqa; exact hqa) kq

end


/-! ## Other numbers of processes -/

mutual
/-- The input with other numbers of processes. -/
def Input.rename (σ : PId → PId) : Input → Input
  | .num xs => .num xs
  | .fdd p x => .fdd (σ p) (x.rename σ)
  | .tup xs => .tup (Input.renames σ xs)
/-- The same for all inputs of a tuple. -/
def Input.renames (σ : PId → PId) : List Input → List Input
  | [] => []
  | x :: xs => x.rename σ :: Input.renames σ xs
end

/-- The definition with other numbers of processes. -/
def ProcDef.rename (σ : PId → PId) : ProcDef → ProcDef
  | .addFn p f => .addFn (σ p) f
  | .sum p q => .sum (σ p) (σ q)
  | .scale p c => .scale (σ p) c
  | .fmul p f => .fmul (σ p) f
  | .pre p t => .pre (σ p) t
  | .diff p d => .diff (σ p) d
  | .cross ps => .cross (ps.map σ)
  | .copy p => .copy (σ p)
  | .rem p q => .rem (σ p) (σ q)
  | d => d

/-- The observation with other numbers of processes. -/
def Obs.rename (σ : PId → PId) : Obs → Obs
  | .exact p x N y => .exact (σ p) (x.rename σ) N y
  | .pseudo pu p o => .pseudo (σ pu) (σ p) { o with z := o.z.rename σ, x := o.x.rename σ }

variable {σ : PId → PId}

theorem refs_rename {d : ProcDef} (hc : ∀ a k l, d ≠ .custom a k l) {p : PId} (hp : p ∈ (d.rename σ).refs) : ∃ q ∈ d.refs, p = σ q := by
  cases d with
  | custom a k l => exact (hc _ _ _ rfl).elim
  | indep => cases hp
  | cross ps =>
    obtain ⟨q, hq, rfl⟩ := List.mem_map.1 hp
    exact ⟨q, hq, rfl⟩
  | sum p q | rem p q =>
    rcases List.mem_cons.1 hp with rfl | hp
    · exact ⟨p, by simp [ProcDef.refs], rfl⟩
    · rw [List.mem_singleton] at hp
      exact ⟨q, by simp [ProcDef.refs], hp⟩
  | fmul p f => 
    cases f <;> simp [ProcDef.rename, ProcDef.refs] at hp <;> exact ⟨p, by simp [ProcDef.refs], hp⟩
  | addFn p f =>
    cases f <;> simp [ProcDef.rename, ProcDef.refs] at hp <;> exact ⟨p, by simp [ProcDef.refs], hp⟩
  | scale p | pre p | diff p | copy p => exact ⟨p, by simp [ProcDef.refs], List.mem_singleton.1 hp⟩

theorem rename_refs {d : ProcDef} {q : PId} (hq : q ∈ d.refs) (hc : ∀ a k l, d ≠ .custom a k l) : σ q ∈ (d.rename σ).refs := by
  cases d <;> simp_all [ProcDef.refs, ProcDef.rename]
  · exact hq.imp (congrArg σ) (congrArg σ)
  · exact ⟨q, hq, rfl⟩
  · exact hq.imp (congrArg σ) (congrArg σ)

theorem renames_eq (xs : List Input) : Input.renames σ xs = xs.map (Input.rename σ) := by
  induction xs with
  | nil => rfl
  | cons x xs ih => rw [Input.renames, ih]; rfl

theorem rename_num (xs : List Pt) : (Input.num xs).rename σ = .num xs := by rw [Input.rename]
theorem rename_fdd (p : PId) (x : Input) : (Input.fdd p x).rename σ = .fdd (σ p) (x.rename σ) := by rw [Input.rename]
theorem rename_tup (xs : List Input) : (Input.tup xs).rename σ = .tup (xs.map (Input.rename σ)) := by rw [Input.rename, renames_eq]

theorem rename_atom {x : Input} (hx : x.IsAtom) : (x.rename σ).IsAtom := by
  cases x with
  | num xs => rw [rename_num]; trivial
  | fdd p x => rw [rename_fdd]; trivial
  | tup xs => exact hx.elim

theorem numElements_rename (x : Input) : numElements (x.rename σ) = numElements x := by
  induction x using Input.ind with
  | num xs => rw [rename_num]
  | fdd p x ih => rw [rename_fdd, numElements, numElements, ih]
  | tup xs ih =>
    rw [rename_tup, numElements, numElements]
    induction xs with
    | nil => rfl
    | cons x xs ih' =>
      rw [List.map_cons, numElementsL, numElementsL, ih x (by simp), ih' fun y hy => ih y (by simp [hy])]

theorem rename_apply {t : InTr} (ht : ∀ j, t ≠ .toFdd j) {x : Input} : t.apply (x.rename σ) = (t.apply x).map (Input.rename σ) := by
  cases x with
  | num xs =>
    rw [rename_num]
    cases t <;> simp only [InTr.apply, Option.map_some, Option.map_map, rename_num] <;> first | rfl | skip
    exact (ht _ rfl).elim
  | fdd p x =>
    rw [rename_fdd]
    cases t <;> simp only [InTr.apply, Option.map_some, Option.map_none, rename_fdd]
    exact (ht _ rfl).elim
  | tup xs =>
    rw [rename_tup]
    cases t <;> rfl

/-! ### Means and kernels that refer to no measure -/

section
variable {lm lm' : MId → PId → Option MExpr} {lk lk' : MId → PId → PId → Option KExpr}

theorem plainFn_rename {r r' : Ev} {f : Fn} (hf : f.Plain) (x : Input) : stepFn lm r f (x.rename σ) = stepFn lm' r' f x := by
  cases f with
  | user f => cases x <;> simp only [rename_num, rename_fdd, rename_tup] <;> rfl
  | const c => simp only [stepFn, numElements_rename]
  | meanOf => exact hf.elim

theorem plainM_rename {a : MExpr} (ha : a.Plain) (n : ℕ) (x : Input) : (ev lm lk n).M a (x.rename σ) = (ev lm' lk' n).M a x := by
  induction a generalizing n with
  | zero =>
    cases n with
    | zero => rfl
    | succ n =>
      show some (List.replicate (numElements (x.rename σ)) (0 : ℝ)) = some (List.replicate (numElements x) (0 : ℝ))
      rw [numElements_rename]
  | fn f =>
    cases n with
    | zero => rfl
    | succ n => exact plainFn_rename ha x
  | add a b iha ihb | mul a b iha ihb =>
    cases n with
    | zero => rfl
    | succ n =>
      show (do let u ← (ev lm lk n).M a (x.rename σ); let v ← (ev lm lk n).M b (x.rename σ); zipCol _ u v) = _
      rw [iha ha.1, ihb ha.2]; rfl
  | scale c a iha =>
    cases n with
    | zero => rfl
    | succ n =>
      show ((ev lm lk n).M a (x.rename σ)).map _ = _
      rw [iha ha]; rfl
  | _ => exact ha.elim

theorem plainK_rename {k : KExpr} (hk : k.Plain) (n : ℕ) {x y : Input} (hx : x.IsAtom) (hy : y.IsAtom) :
    (ev lm lk n).K k (x.rename σ) (y.rename σ) = (ev lm' lk' n).K k x y := by
  induction k generalizing n with
  | prim k =>
    cases n with
    | zero => rfl
    | succ n =>
      rw [ev_K_atom (rename_atom hx) (rename_atom hy), ev_K_atom hx hy]
      cases x <;> cases y <;> first | exact hx.elim | exact hy.elim | (simp only [rename_num, rename_fdd]; rfl)
  | zero =>
    cases n with
    | zero => rfl
    | succ n =>
      rw [ev_K_atom (rename_atom hx) (rename_atom hy), ev_K_atom hx hy]
      simp only [stepKAtom, numElements_rename]
  | add a b iha ihb | mul a b iha ihb =>
    cases n with
    | zero => rfl
    | succ n =>
      rw [ev_K_atom (rename_atom hx) (rename_atom hy), ev_K_atom hx hy]
      simp only [stepKAtom, iha hk.1, ihb hk.2]
  | scale c a iha =>
    cases n with
    | zero => rfl
    | succ n =>
      rw [ev_K_atom (rename_atom hx) (rename_atom hy), ev_K_atom hx hy]
      simp only [stepKAtom, iha hk]
  | tprod f g =>
    cases n with
    | zero => rfl
    | succ n =>
      rw [ev_K_atom (rename_atom hx) (rename_atom hy), ev_K_atom hx hy]
      simp only [stepKAtom]
      rw [plainFn_rename (lm' := lm') (r' := ev lm' lk' n) hk.1, plainFn_rename (lm' := lm') (r' := ev lm' lk' n) hk.2]
  | _ => exact hk.elim

theorem plainD_rename {k : KExpr} (hk : k.Plain) (n : ℕ) {x y : Input} (hx : x.IsAtom) (hy : y.IsAtom) :
    (ev lm lk n).D k (x.rename σ) (y.rename σ) = (ev lm' lk' n).D k x y := by
  induction k generalizing n with
  | prim k =>
    cases n with
    | zero => rfl
    | succ n =>
      rw [ev_D_atom (rename_atom hx) (rename_atom hy), ev_D_atom hx hy]
      cases x <;> cases y <;> first | exact hx.elim | exact hy.elim | (simp only [rename_num, rename_fdd]; rfl)
  | zero =>
    cases n with
    | zero => rfl
    | succ n =>
      rw [ev_D_atom (rename_atom hx) (rename_atom hy), ev_D_atom hx hy]
      simp only [stepDAtom, numElements_rename]
  | add a b iha ihb | mul a b iha ihb =>
    cases n with
    | zero => rfl
    | succ n =>
      rw [ev_D_atom (rename_atom hx) (rename_atom hy), ev_D_atom hx hy]
      simp only [stepDAtom, iha hk.1, ihb hk.2]
  | scale c a iha =>
    cases n with
    | zero => rfl
    | succ n =>
      rw [ev_D_atom (rename_atom hx) (rename_atom hy), ev_D_atom hx hy]
      simp only [stepDAtom, iha hk]
  | tprod f g =>
    cases n with
    | zero => rfl
    | succ n =>
      rw [ev_D_atom (rename_atom hx) (rename_atom hy), ev_D_atom hx hy]
      simp only [stepDAtom]
      rw [plainFn_rename (lm' := lm') (r' := ev lm' lk' n) hk.1, plainFn_rename (lm' := lm') (r' := ev lm' lk' n) hk.2]
  | _ => exact hk.elim

end


/-! ## The same equations -/

/-- Every process and every posterior of `ops'` is, with other numbers, one of `ops`: `σ` gives the numbers of processes in `ops` and `τ` those of measures.
Processes have the same definitions, new GPs are made in the same measures, and posteriors come from the same observations. The order of the operations may be
different, and there may be more in `ops`. -/
structure Mirrors (σ : PId → PId) (τ : MId → MId) (ops' ops : List Op) : Prop where
  inj : Function.Injective σ
  attached : ∀ (m : MId) (p : PId), Attached (runOps ops' {}) m p → Attached (runOps ops {}) (τ m) (σ p)
  makes : ∀ before' o' r d, Makes ops' before' o' r d → ∃ before o, Makes ops before o (σ r) (d.rename σ) ∧
    ((∃ a k, d = .indep a k) → ∀ m : MId, Attached (runOps (before' ++ [o']) {}) m r → Attached (runOps (before ++ [o]) {}) (τ m) (σ r))
  gives : ∀ before' m obs m1, Gives ops' before' m obs m1 → ∃ before, Gives ops before (τ m) (obs.rename σ) (τ m1)

section
variable {V : Type} [AddCommGroup V] [Module ℝ V] {I : Interp V} {τ : MId → MId}

/-- The reading with other numbers. -/
def Interp.pull (I : Interp V) (σ : PId → PId) (τ : MId → MId) : Interp V where
  S m := I.S (τ m)
  F m p x := I.F (τ m) (σ p) (x.rename σ)
  one := I.one
  D := I.D

omit [AddCommGroup V] [Module ℝ V] in
theorem RF.OK.rename {G : RF V} (h : G.OK) : RF.OK fun x => G (x.rename σ) where
  tup xs := by
    show G _ = _
    rw [rename_tup, h.tup, List.mapM_map]; rfl
  size x vs hv := by rw [← numElements_rename (σ := σ) x]; exact h.size _ _ hv
  pointwise xs vs hv hl i x v hx hv' := by
    simp only [rename_num] at hv ⊢
    exact h.pointwise xs vs hv hl i x v hx hv'

theorem fnAt_rename {f : Fn} (hf : f.Fixed) (x : Input) (n : ℕ) : (I.pull σ τ).fnAt f x n = I.fnAt f (x.rename σ) n := by
  cases f with
  | user => cases x <;> simp only [rename_num, rename_fdd, rename_tup] <;> rfl
  | const => rfl
  | meanOf => exact hf.elim

omit [Module ℝ V] in
theorem pull_der (G : RF V) (D : (ℝ → V) → Option V) (d : ℕ) (x : Pt) : RF.der D (fun x => G (x.rename σ)) d x = RF.der D G d x := by
  have h1 : ∀ x, pointOf (fun x => G (x.rename σ)) x = pointOf G x := fun x => by simp only [pointOf, rename_num]
  have h2 : RF.Along (fun x => G (x.rename σ)) d x ↔ RF.Along G d x := by simp only [RF.Along, rename_num]
  unfold RF.der
  simp only [h1]
  by_cases h : RF.Along G d x
  · rw [if_pos h, if_pos (h2.2 h)]
  · rw [if_neg h, if_neg fun h' => h (h2.1 h')]

/-- The law of a definition that is not that of a new GP. -/
theorem Interp.DefLaw.pull {lm lm' : MId → PId → Option MExpr} {lk lk' : MId → PId → PId → Option KExpr} {m m0 : MId} {known known' : List PId} {r : PId}
    {d : ProcDef} (h : I.DefLaw lm lk m0 known' (σ r) (d.rename σ)) (hs : d.Simple) (hi : ∀ a k, d ≠ .indep a k) (inj : Function.Injective σ)
    (hr : I.F (τ m) (σ r) = I.F m0 (σ r)) (hq : ∀ q ∈ d.refs, I.F (τ m) (σ q) = I.F m0 (σ q))
    (hS : ∀ p i, d = .diff p i → ∀ x w, I.der (I.F (τ m) (σ p)) i x = some w → (I.S (τ m)).Slope (fun t => pointOf (I.F (τ m) (σ p)) (bump i t x)) w) : (I.pull σ τ).DefLaw lm' lk' m known r d := by
  obtain ⟨he, hl⟩ := hs
  cases d with
  | indep a k => exact (hi _ _ rfl).elim
  | custom a k l => exact he.elim
  | rem p q => exact hl.elim
  | addFn p f =>
    intro x hx
    have hp := hq p (by simp [ProcDef.refs])
    show I.F (τ m) (σ r) (x.rename σ) = ((I.F (τ m) (σ p) (x.rename σ)).bind fun vs => ((I.pull σ τ).fnAt f x vs.length).bind fun us => _)
    rw [hr, hp, h _ (rename_atom hx)]
    refine congrArg _ (funext fun vs => ?_)
    rw [fnAt_rename hl]
    rfl
  | fmul p f =>
    intro x hx
    have hp := hq p (by simp [ProcDef.refs])
    show I.F (τ m) (σ r) (x.rename σ) = ((I.F (τ m) (σ p) (x.rename σ)).bind fun vs => ((I.pull σ τ).fnAt f x vs.length).bind fun us => _)
    rw [hr, hp, h _ (rename_atom hx)]
    refine congrArg _ (funext fun vs => ?_)
    rw [fnAt_rename hl]
    rfl
  | sum p q =>
    intro x hx
    have hp := hq p (by simp [ProcDef.refs])
    have hq := hq q (by simp [ProcDef.refs])
    show I.F (τ m) (σ r) (x.rename σ) = ((I.F (τ m) (σ p) (x.rename σ)).bind fun vs => ((I.F (τ m) (σ q) (x.rename σ)).bind fun ws => zipAdd vs ws))
    rw [hr, hp, hq, h _ (rename_atom hx)]
    rfl
  | scale p c =>
    intro x hx
    have hp := hq p (by simp [ProcDef.refs])
    show I.F (τ m) (σ r) (x.rename σ) = (I.F (τ m) (σ p) (x.rename σ)).map (·.map (c • ·))
    rw [hr, hp, h _ (rename_atom hx)]
  | pre p t =>
    intro x hx
    have hp := hq p (by simp [ProcDef.refs])
    show I.F (τ m) (σ r) (x.rename σ) = (t.apply x).bind fun x => I.F (τ m) (σ p) (x.rename σ)
    rw [hr, hp, h _ (rename_atom hx), rename_apply he]
    cases t.apply x <;> rfl
  | copy p =>
    have hp := hq p (by simp [ProcDef.refs])
    funext x
    show I.F (τ m) (σ r) (x.rename σ) = I.F (τ m) (σ p) (x.rename σ)
    rw [hr, hp, show I.F m0 (σ r) = I.F m0 (σ p) from h]
  | diff p d =>
    have hp := hq p (by simp [ProcDef.refs])
    obtain ⟨h1, h2, h3⟩ := h
    have hd : ∀ x, (I.pull σ τ).der ((I.pull σ τ).F m p) d x = I.der (I.F m0 (σ p)) d x := fun x => by
      rw [← hp]; exact pull_der _ _ _ _
    refine ⟨fun xs => ?_, fun q x => ?_, fun x w hw => ?_⟩
    · show I.F (τ m) (σ r) ((Input.num xs).rename σ) = _
      rw [rename_num, hr, h1]
      exact mapM_congr fun x _ => (hd x).symm
    · show I.F (τ m) (σ r) ((Input.fdd q x).rename σ) = _
      rw [rename_fdd, hr, h2]
    · rw [hd] at hw
      have := hS p d rfl x w (by rw [hp]; exact hw)
      have e : ∀ y, pointOf ((I.pull σ τ).F m p) y = pointOf (I.F (τ m) (σ p)) y := fun y => by
        show pointOf (fun x => I.F (τ m) (σ p) (x.rename σ)) y = _
        simp only [pointOf, rename_num]
      simp only [e]
      exact this
  | cross ps =>
    obtain ⟨h1, h2⟩ := h
    refine ⟨fun xs => ?_, fun q x => ?_⟩
    · show I.F (τ m) (σ r) ((Input.num xs).rename σ) = (ps.mapM fun p => I.F (τ m) (σ p) ((Input.num xs).rename σ)).map List.flatten
      rw [rename_num, hr, h1, List.mapM_map]
      congr 1
      exact mapM_congr fun p hp => by rw [hq p hp]; rfl
    · show I.F (τ m) (σ r) ((Input.fdd q x).rename σ) = if q ∈ ps then I.F (τ m) (σ q) (x.rename σ) else none
      rw [rename_fdd, hr, h2]
      by_cases hqp : q ∈ ps
      · rw [if_pos hqp, if_pos (List.mem_map_of_mem hqp), hq q hqp]
      · rw [if_neg hqp, if_neg fun h => hqp ?_]
        obtain ⟨q', hq', e⟩ := List.mem_map.1 h
        rwa [← inj e]

/-- A reading of a program is a reading of all programs that follow it. -/
theorem Interp.Reads.pull {ops ops' : List Op} (h : I.Reads ops) (hfm : I.Firm ops) (hf : Mirrors σ τ ops' ops) (he : ∀ o ∈ ops, o.Elem) (hu : Unmultiplied ops) (he' : ∀ o ∈ ops', o.Elem)
    (hu' : Unmultiplied ops') : (I.pull σ τ).Reads ops' where
  ok m p := (h.ok (τ m) (σ p)).rename
  one_E m := h.one_E (τ m)
  one_C m := h.one_C (τ m)
  post := by
    intro before m obs after e hm
    have g : Gives ops' before m obs (runOps before {}).ms.length := ⟨⟨after, e⟩, hm, rfl⟩
    obtain ⟨before0, g0⟩ := hf.gives before m obs _ g
    have st := h.steady he hu
    refine ⟨fun p hp => ?_, ?_⟩
    · funext x
      show I.F _ _ _ = I.F _ _ _
      have hp := mem_members.1 hp
      have a1 : Attached (runOps ops' {}) m p := by rw [e]; exact attached_append _ hp
      have a2 : Attached (runOps ops' {}) (runOps before {}).ms.length p := by
        have := attached_append after (attached_condition (obs := obs) hp)
        rw [e]
        simpa using this
      rw [st (σ p) (hf.attached _ _ a2) (hf.attached _ _ a1)]
    · obtain ⟨after0, e0⟩ := g0.split
      have law := (h.post before0 (τ m) (obs.rename σ) after0 e0 g0.has).2
      rw [← g0.id] at law
      cases obs with
      | exact p x N y =>
        rcases law with ⟨h1, h2⟩ | ⟨h1, zs, h2, h3⟩
        · exact .inl ⟨(numElements_rename x).symm.trans h1, h2⟩
        · exact .inr ⟨fun h => h1 ((numElements_rename x).trans h), zs, h2, h3⟩
      | pseudo pu p o =>
        obtain ⟨zs, xs, h1, h2, h3⟩ := law
        exact ⟨zs, xs, h1, h2, ⟨h3.zr, h3.zc, h3.xr, h3.xc, h3.C, h3.E⟩⟩
  defs := by
    intro before o after e m older r d younger hw hat
    have ho : ∀ p q ord, o ≠ .mul p q ord := fun p q ord h => hu' p q ord (by rw [e, h]; simp)
    obtain ⟨hr, hmk⟩ := written_makes ho (e := (r, d)) (n := (runOps before {}).gps.length) (m := m) (by rw [hw]; simp)
    have hold : older = [] := by
      rw [Op.makes_written hmk] at hw
      cases older with
      | nil => rfl
      | cons a l => simp at hw
    subst hold
    have mk : Makes ops' before o r d := ⟨⟨⟨after, e⟩, hr, m, hat⟩, hmk⟩
    obtain ⟨before0, o0, mk0, hfresh⟩ := hf.makes before o r d mk
    have hat' : Attached (runOps ops' {}) m r := by
      have := attached_append after hat
      rw [e]; simpa using this
    have hs := mk.simple he'
    simp only [List.map_nil, List.append_nil]
    by_cases hi : ∃ a k, d = .indep a k
    · have hat0 := hfresh hi m hat
      obtain ⟨mean, k, rfl⟩ := hi
      obtain ⟨after0, e0⟩ := mk0.split
      have hw0 : o0.written (runOps before0 {}).gps.length (τ m) = [] ++ (σ r, .indep mean k) :: [] := by rw [Op.makes_written mk0.makes, mk0.id]; rfl
      obtain ⟨l1, l2, _⟩ := h.defs before0 o0 after0 e0 (τ m) [] (σ r) _ [] hw0 hat0
      obtain ⟨pm, pk, _⟩ := hs.elem
      refine ⟨fun n x u t hu ht => ?_, fun n => ⟨fun hz => ?_, fun x y A T hx hy hA hT => ?_, fun x y u T hx hy hu hT => ?_⟩, fun q hq => ?_⟩
      · exact l1 n (x.rename σ) u t (by rw [plainM_rename (lm' := meanAt (runOps ops' {})) (lk' := kernelAt (runOps ops' {})) pm]; exact hu) ht
      · intro x y T hx hy hT
        exact (l2 n).zero hz (x.rename σ) (y.rename σ) T (rename_atom hx) (rename_atom hy) hT
      · exact (l2 n).K (x.rename σ) (y.rename σ) A T (rename_atom hx) (rename_atom hy)
          (by rw [plainK_rename (lm' := meanAt (runOps ops' {})) (lk' := kernelAt (runOps ops' {})) pk n hx hy]; exact hA) hT
      · exact (l2 n).D (x.rename σ) (y.rename σ) u T (rename_atom hx) (rename_atom hy)
          (by rw [plainD_rename (lm' := meanAt (runOps ops' {})) (lk' := kernelAt (runOps ops' {})) pk n hx hy]; exact hu) hT
      · have hq := mem_members.1 hq
        have aq : Attached (runOps ops' {}) m q := by rw [e]; exact attached_append _ hq
        have fr := h.fresh he hu mk0 hat0 (κ := fun p => ∃ p' m', p' < r ∧ Attached (runOps ops' {}) m' p' ∧ p = σ p')
          (by rintro ⟨p', _, hlt, _, e⟩; exact hlt.ne (hf.inj e.symm)) ?_ (σ q) (hf.attached m q aq)
          ⟨q, m, by rw [show r = _ from hr]; exact attached_lt hq, aq, rfl⟩
        · intro x y vs ws hv hw
          exact fr (x.rename σ) (y.rename σ) vs ws hv hw
        · rintro b1 o1 _ d1 mk1 ⟨p', m', hlt, ap', rfl⟩ p hp
          obtain ⟨b2, o2, d2, mk2⟩ := hu'.made_attached ap'
          obtain ⟨b3, o3, mk3, _⟩ := hf.makes b2 o2 p' d2 mk2
          have e1 : d1 = d2.rename σ := mk1.unique mk3
          rw [e1] at hp
          obtain ⟨q', hq', rfl⟩ := refs_rename (fun a k l e => by have := (mk2.simple he').elem; rw [e] at this; exact this) hp
          obtain ⟨m2, am2⟩ := mk2.attached
          have := mk2.refs_before am2 q' hq'
          obtain ⟨after2, e2⟩ := mk2.split
          exact ⟨q', m2, (mk2.refs_lt q' hq').trans hlt, by rw [e2]; exact attached_append _ this, rfl⟩
    · obtain ⟨m0, known, law, hF, hk, hrefs⟩ := h.everywhere mk0 (hf.attached m r hat')
      refine law.pull hs (fun a k e => hi ⟨a, k, e⟩) hf.inj hF (fun q hq => hk (σ q) (hrefs (σ q) (rename_refs hq fun a k l e => by have := hs.elem; rw [e] at this; exact this)).1) fun p i e => ?_
      subst e
      exact h.slope hfm mk0 (τ m) (hf.attached m r hat')

end

end Stheno
