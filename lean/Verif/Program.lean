import Verif.Realise

/-!
# Readings of programs, continued

The laws of the state that the specification machine reaches are equivalent to the equations of the program. So
programs of elementary operations have a reading.
-/

namespace Stheno

/-! ## From laws to readings -/

/-- An operation keeps the definitions of every measure. -/
theorem op_grows {L : AWorld} (wf : Wf L) (o : Op) {m : MId} {a : AMeas} (ha : L.ms[m]? = some a) :
    ∃ a', (o.specAfter L).ms[m]? = some a' ∧ a'.base = a.base ∧ a'.basePs = a.basePs ∧ a.defs <:+ a'.defs := by
  by_cases hc : ∃ m obs, o = .condition m obs
  · obtain ⟨m', obs, rfl⟩ := hc
    cases hb : L.ms[m']? with
    | none => rw [condition_spec_none hb]; exact ⟨a, ha, rfl, rfl, List.suffix_rfl⟩
    | some b =>
      rw [condition_spec hb]
      refine ⟨a, ?_, rfl, rfl, List.suffix_rfl⟩
      show (L.ms ++ [_])[m]? = _
      rw [List.getElem?_append_left (List.getElem?_eq_some_iff.1 ha).1, ha]
  · obtain ⟨L0, h0, D, hg, _⟩ := op_within wf o fun m obs h => hc ⟨m, obs, h⟩
    have ha0 : L0.ms[m]? = some a := by
      rcases h0 with h0 | h0
      · rw [h0, ha]
      · rw [h0, List.getElem?_append_left (List.getElem?_eq_some_iff.1 ha).1, ha]
    have := hg m
    rw [ha0] at this
    obtain ⟨a', ha', he⟩ := Option.map_eq_some_iff.1 this
    simp only [AMeas.core, Prod.mk.injEq] at he
    exact ⟨a', ha', he.1, he.2.1, ⟨D m, he.2.2.symm⟩⟩

/-- Programs keep the definitions of every measure. -/
theorem ops_grow (before : List Op) : ∀ (after : List Op) {m : MId} {a : AMeas}, (specOps before {}).ms[m]? = some a →
    ∃ a', (specOps (before ++ after) {}).ms[m]? = some a' ∧ a'.base = a.base ∧ a'.basePs = a.basePs ∧
      a.defs <:+ a'.defs := by
  intro after
  induction after using List.reverseRecOn with
  | nil => intro m a ha; exact ⟨a, by simpa using ha, rfl, rfl, List.suffix_rfl⟩
  | append_singleton after o ih =>
    intro m a ha
    obtain ⟨b, hb, h1, h2, h3⟩ := ih ha
    obtain ⟨c, hc, h1', h2', h3'⟩ := op_grows (Inv.reach (before ++ after)).wf o hb
    refine ⟨c, ?_, h1'.trans h1, h2'.trans h2, h3.trans h3'⟩
    rw [← List.append_assoc, specOps_append]
    exact hc

theorem written_nodup (o : Op) (n : ℕ) (m : MId) : ((o.written n m).map (·.1)).Nodup := by
  cases o <;> simp [Op.written] <;> omega

theorem written_ge (o : Op) (n : ℕ) (m : MId) : ∀ e ∈ o.written n m, n ≤ e.1 := by
  cases o <;> simp [Op.written] <;> omega

theorem suffix_of_nodup {l older younger : List (PId × ProcDef)} {r : PId} {d : ProcDef}
    (hn : ((younger ++ (r, d) :: older).map (·.1)).Nodup) (hs : l <:+ younger ++ (r, d) :: older)
    (hr : r ∈ l.map (·.1)) : ∃ es, l = es ++ (r, d) :: older := by
  obtain ⟨t, ht⟩ := hs
  rcases List.append_eq_append_iff.1 ht with ⟨c, h1, h2⟩ | ⟨c, h1, h2⟩
  · exact ⟨c, h2⟩
  · cases c with
    | nil => exact ⟨[], h2.symm⟩
    | cons x c =>
      exfalso
      simp only [List.cons_append, List.cons.injEq] at h2
      obtain ⟨rfl, h2⟩ := h2
      subst h2
      simp only [List.map_append, List.map_cons, List.nodup_append, List.nodup_cons, List.mem_append] at hn
      exact hn.2.1.1 (.inr hr)

/-- The definitions that an operation leaves behind in a measure to which it attached `r`. -/
theorem written_attached {before : List Op} {o : Op} {m : MId} {older younger : List (PId × ProcDef)} {r : PId}
    {d : ProcDef} (hw : o.written (runOps before {}).gps.length m = older ++ (r, d) :: younger)
    (hat : Attached (runOps (before ++ [o]) {}) m r) :
    ∃ a' es es', (specOps (before ++ [o]) {}).ms[m]? = some a' ∧ a'.defs = es ++ (r, d) :: es' ∧
      knownOf a'.basePs es' = members (runOps before {}) m ++ older.map (·.1) := by
  have iv := Inv.reach before
  have iv' := Inv.reach (before ++ [o])
  have hs : specOps (before ++ [o]) {} = o.specAfter (specOps before {}) := by
    rw [specOps_append]; rfl
  obtain ⟨a', ha', hr⟩ := iv'.attached.1 hat
  rw [iv.rel.gps] at hw
  rw [hs] at ha' ⊢
  have hge : (specOps before {}).gps.length ≤ r := by
    have := written_ge o (specOps before {}).gps.length m (r, d) (by rw [hw]; simp)
    exact this
  generalize specOps before {} = L at *
  have hc : ∀ m obs, o ≠ .condition m obs := by
    rintro m obs rfl
    have := congrArg List.length hw
    simp [Op.written] at this
  obtain ⟨L0, h0, D, hg, hsuf⟩ := op_within iv.wf o hc
  have := hg m
  rw [ha'] at this
  cases ha : L0.ms[m]? with
  | none => rw [ha] at this; cases this
  | some a =>
    rw [ha] at this
    simp only [Option.map_some, AMeas.core, Option.some.injEq, Prod.mk.injEq] at this
    obtain ⟨hb, hbp, hdd⟩ := this
    have hold : r ∉ a.ps := by
      intro h
      have hL : L.ms[m]? = some a ∨ a = ({} : AMeas) := by
        rcases h0 with h0 | h0
        · rw [h0] at ha; exact .inl ha
        · rw [h0, List.getElem?_append] at ha
          split at ha
          · exact .inl ha
          · right
            rw [List.getElem?_singleton] at ha
            split at ha
            · exact (Option.some.inj ha).symm
            · cases ha
      rcases hL with hL | rfl
      · obtain ⟨l, hl, _⟩ := iv.wf.mem_gps m a hL r h
        have := (List.getElem?_eq_some_iff.1 hl).1
        omega
      · simp [AMeas.ps, knownOf] at h
    have hrD : r ∈ (D m).map (·.1) := by
      unfold AMeas.ps at hr hold
      rw [mem_knownOf] at hr hold
      rw [hbp, hdd, List.map_append, List.mem_append] at hr
      tauto
    have hs' := hsuf m
    simp only at hs'
    rw [hw] at hs'
    have hn := written_nodup o L.gps.length m
    rw [hw] at hn
    have e : (older ++ (r, d) :: younger).reverse = younger.reverse ++ (r, d) :: older.reverse := by simp
    rw [e] at hs'
    have hn' : ((younger.reverse ++ (r, d) :: older.reverse).map (·.1)).Nodup := by
      rw [← e, List.map_reverse, List.nodup_reverse]; exact hn
    obtain ⟨es, hes⟩ := suffix_of_nodup hn' hs' hrD
    refine ⟨a', es, older.reverse ++ a.defs, ha', by rw [hdd, hes]; simp, ?_⟩
    have hmem : members (runOps before {}) m = a.ps := by
      cases hL : L.ms[m]? with
      | some b =>
        rw [iv.members hL]
        have : a = b := by
          rcases h0 with h0 | h0
          · rw [h0, hL] at ha; exact (Option.some.inj ha).symm
          · rw [h0, List.getElem?_append_left (List.getElem?_eq_some_iff.1 hL).1, hL] at ha
            exact (Option.some.inj ha).symm
        rw [this]
      | none =>
        rw [iv.members_none hL]
        rcases h0 with h0 | h0
        · rw [h0, hL] at ha; cases ha
        · rw [h0, List.getElem?_append_right (List.getElem?_eq_none_iff.1 hL),
            List.getElem?_singleton] at ha
          split at ha
          · cases ha; rfl
          · cases ha
    rw [hmem, hbp]
    simp [AMeas.ps, knownOf]

section
variable {V : Type} [AddCommGroup V] [Module ℝ V] {I : Interp V}

/-- Random variables that satisfy the laws of the state that the specification machine reaches are a reading. -/
theorem Interp.Laws.reads {ops : List Op} (h : I.Laws (specOps ops {})) : I.Reads ops where
  ok := h.ok
  one_E := h.one_E
  one_C := h.one_C
  defs before o after e m older r d younger hw hat := by
    have iv := Inv.reach ops
    have em : meanAt (runOps ops {}) = (specOps ops {}).mean := by funext m i; exact iv.meanAt m i
    have ek : kernelAt (runOps ops {}) = (specOps ops {}).kernel := by funext m i j; exact iv.kernelAt m i j
    obtain ⟨a, es, es', ha, hd, hk⟩ := written_attached hw hat
    obtain ⟨a', ha', _, hbp, t, ht⟩ := ops_grow (before ++ [o]) after ha
    rw [em, ek, ← hk, ← hbp]
    refine h.defs m a' (t ++ es) r d es' ?_ ?_
    · rw [e]; simpa using ha'
    · rw [← ht, hd]; simp
  post before m obs after e hm := by
    have iv := Inv.reach before
    have hlt : m < (specOps before {}).ms.length := by rw [← iv.rel.len]; exact hm
    obtain ⟨a, ha⟩ : ∃ a, (specOps before {}).ms[m]? = some a := ⟨_, List.getElem?_eq_getElem hlt⟩
    have hs : specOps (before ++ [.condition m obs]) {} = (specOps before {}).cond m a obs := by
      rw [specOps_append]
      exact condition_spec ha obs
    have hnew : (specOps (before ++ [.condition m obs]) {}).ms[(specOps before {}).ms.length]? =
        some { base := some ⟨m, obs⟩, basePs := a.ps } := by
      rw [hs]
      show ((specOps before {}).ms ++ [_])[(specOps before {}).ms.length]? = _
      simp
    obtain ⟨a', ha', hb, hbp, _⟩ := ops_grow _ after hnew
    have := h.post (specOps before {}).ms.length a' ⟨m, obs⟩ (by rw [e]; simpa using ha') hb
    rw [iv.rel.len, iv.members ha]
    rw [hbp] at this
    exact this

end

/-! ## Elementary programs -/

/-- Operations for which canonical variables are constructed. -/
def Op.Elem : Op → Prop
  | .gp mean k _ _ => mean.Plain ∧ k.Plain ∧ IsPSD k.val
  | .addFn _ f | .fmul _ f => f.Plain
  | .pre _ t => ∀ j, t ≠ .toFdd j
  | .cross ps _ => ps ≠ []
  | .addGP _ _ _ _ _ => False
  | _ => True

theorem written_elem {o : Op} (h : o.Elem) (n : ℕ) (m : MId) : ∀ e ∈ o.written n m, e.2.Elem := by
  cases o <;> simp [Op.written, ProcDef.Elem] <;> exact h

/-- Every definition is written by an operation, and every posterior is made by conditioning. -/
theorem defs_from (P : PId × ProcDef → Prop) (ops : List Op)
    (hP : ∀ before o after, ops = before ++ o :: after →
      ∀ m, ∀ e ∈ o.written (runOps before {}).gps.length m, P e)
    (m : MId) (a : AMeas) (ha : (specOps ops {}).ms[m]? = some a) : ∀ e ∈ a.defs, P e := by
  induction ops using List.reverseRecOn generalizing m a with
  | nil => simp [specOps] at ha
  | append_singleton ops o ih =>
    have ih := ih fun before o' after e => hP before o' (after ++ [o]) (by rw [e]; simp)
    have iv := Inv.reach ops
    have hP := hP ops o [] rfl
    rw [iv.rel.gps] at hP
    have hs : specOps (ops ++ [o]) {} = o.specAfter (specOps ops {}) := by
      rw [specOps_append]; rfl
    rw [hs] at ha
    generalize specOps ops {} = L at *
    by_cases hc : ∃ m obs, o = .condition m obs
    · obtain ⟨m', obs, rfl⟩ := hc
      cases hb : L.ms[m']? with
      | none => rw [condition_spec_none hb] at ha; exact ih m a ha
      | some b =>
        rw [condition_spec hb] at ha
        change (L.ms ++ [_])[m]? = _ at ha
        rw [List.getElem?_append] at ha
        split at ha
        · exact ih m a ha
        · rw [List.getElem?_singleton] at ha
          split at ha
          · cases ha; simp
          · cases ha
    · obtain ⟨L0, h0, D, hg, hsuf⟩ := op_within iv.wf o fun m obs h => hc ⟨m, obs, h⟩
      have := hg m
      rw [ha] at this
      cases ha0 : L0.ms[m]? with
      | none => rw [ha0] at this; cases this
      | some a0 =>
        rw [ha0] at this
        simp only [Option.map_some, AMeas.core, Option.some.injEq, Prod.mk.injEq] at this
        obtain ⟨_, _, hdd⟩ := this
        intro e he
        rw [hdd, List.mem_append] at he
        rcases he with he | he
        · exact hP m e (by simpa using (hsuf m).subset he)
        · have key : L.ms[m]? = some a0 ∨ a0 = ({} : AMeas) := by
            rcases h0 with h0 | h0
            · rw [h0] at ha0; exact .inl ha0
            · rw [h0, List.getElem?_append] at ha0
              split at ha0
              · exact .inl ha0
              · right
                rw [List.getElem?_singleton] at ha0
                split at ha0
                · exact (Option.some.inj ha0).symm
                · cases ha0
          rcases key with key | rfl
          · exact ih m a0 key e he
          · simp at he

/-- Posterior measures come from conditioning. -/
theorem base_from (ops : List Op) (m : MId) (a : AMeas) (u : URule) (ha : (specOps ops {}).ms[m]? = some a)
    (hu : a.base = some u) : ∃ before after, ops = before ++ .condition u.prior u.obs :: after ∧
      HasMeasure (runOps before {}) u.prior ∧ m = (runOps before {}).ms.length ∧
      a.basePs = members (runOps before {}) u.prior := by
  induction ops using List.reverseRecOn generalizing a with
  | nil => simp [specOps] at ha
  | append_singleton ops o ih =>
    have iv := Inv.reach ops
    have hs : specOps (ops ++ [o]) {} = o.specAfter (specOps ops {}) := by
      rw [specOps_append]; rfl
    rw [hs] at ha
    have old : ∀ a0, (specOps ops {}).ms[m]? = some a0 → a0.base = some u → a0.basePs = a.basePs →
        ∃ before after, ops ++ [o] = before ++ .condition u.prior u.obs :: after ∧
          HasMeasure (runOps before {}) u.prior ∧ m = (runOps before {}).ms.length ∧
          a.basePs = members (runOps before {}) u.prior := by
      intro a0 h0 hb hbp
      obtain ⟨before, after, e, h1, h2, h3⟩ := ih a0 h0 hb
      exact ⟨before, after ++ [o], by rw [e]; simp, h1, h2, hbp ▸ h3⟩
    by_cases hc : ∃ m obs, o = .condition m obs
    · obtain ⟨m', obs, rfl⟩ := hc
      cases hb : (specOps ops {}).ms[m']? with
      | none => rw [condition_spec_none hb] at ha; exact old a ha hu rfl
      | some b =>
        rw [condition_spec hb] at ha
        change ((specOps ops {}).ms ++ [_])[m]? = _ at ha
        rw [List.getElem?_append] at ha
        split at ha
        · exact old a ha hu rfl
        · rw [List.getElem?_singleton] at ha
          split at ha
          · cases ha
            cases hu
            refine ⟨ops, [], rfl, ?_, ?_, ?_⟩
            · show m' < _
              rw [iv.rel.len]; exact (List.getElem?_eq_some_iff.1 hb).1
            · rw [iv.rel.len]; omega
            · exact (iv.members hb).symm
          · cases ha
    · obtain ⟨L0, h0, D, hg, _⟩ := op_within iv.wf o fun m obs h => hc ⟨m, obs, h⟩
      have := hg m
      rw [ha] at this
      cases ha0 : L0.ms[m]? with
      | none => rw [ha0] at this; cases this
      | some a0 =>
        rw [ha0] at this
        simp only [Option.map_some, AMeas.core, Option.some.injEq, Prod.mk.injEq] at this
        obtain ⟨hb, hbp, _⟩ := this
        have key : (specOps ops {}).ms[m]? = some a0 ∨ a0 = ({} : AMeas) := by
          rcases h0 with h0 | h0
          · rw [h0] at ha0; exact .inl ha0
          · rw [h0, List.getElem?_append] at ha0
            split at ha0
            · exact .inl ha0
            · right
              rw [List.getElem?_singleton] at ha0
              split at ha0
              · exact (Option.some.inj ha0).symm
              · cases ha0
        rcases key with key | rfl
        · exact old a0 key (hb ▸ hu) hbp.symm
        · rw [hb] at hu; cases hu

/-- Means that are functions in a definition are means in the same measure, of processes that it already had. -/
theorem means_from (ops : List Op) (h : ∀ o ∈ ops, o.Elem) (m : MId) (a : AMeas) (es : List (PId × ProcDef)) (r p : PId) (n : MId) (q : PId)
    (es' : List (PId × ProcDef)) (ha : (specOps ops {}).ms[m]? = some a) (e : a.defs = es ++ (r, .fmul p (.meanOf n q)) :: es') :
    n = m ∧ q ∈ knownOf a.basePs es' := by
  induction ops using List.reverseRecOn generalizing m a es es' with
  | nil => simp [specOps] at ha
  | append_singleton ops o ih =>
    have ih := ih fun o' ho' => h o' (by simp [ho'])
    have ho := h o (by simp)
    have iv := Inv.reach ops
    have hs : specOps (ops ++ [o]) {} = o.specAfter (specOps ops {}) := by
      rw [specOps_append]; rfl
    rw [hs] at ha
    generalize specOps ops {} = L at *
    by_cases hc : ∃ m obs, o = .condition m obs
    · obtain ⟨m', obs, rfl⟩ := hc
      cases hb : L.ms[m']? with
      | none => rw [condition_spec_none hb] at ha; exact ih m a es es' ha e
      | some b =>
        rw [condition_spec hb] at ha
        change (L.ms ++ [_])[m]? = _ at ha
        rw [List.getElem?_append] at ha
        split at ha
        · exact ih m a es es' ha e
        · rw [List.getElem?_singleton] at ha
          split at ha
          · cases ha; simp at e
          · cases ha
    -- definitions that were there before
    have old : ∀ (L0 : AWorld) (D : MId → List (PId × ProcDef)), (L0.ms = L.ms ∨ L0.ms = L.ms ++ [({} : AMeas)]) → Grown D L0 (o.specAfter L) →
        (n = m ∧ q ∈ knownOf a.basePs es') ∨ ∃ a0 c, L0.ms[m]? = some a0 ∧ D m = es ++ (r, .fmul p (.meanOf n q)) :: c ∧
          es' = c ++ a0.defs ∧ a.basePs = a0.basePs := by
      intro L0 D h0 hg
      have := hg m
      rw [ha] at this
      cases ha0 : L0.ms[m]? with
      | none => rw [ha0] at this; cases this
      | some a0 =>
        rw [ha0] at this
        simp only [Option.map_some, AMeas.core, Option.some.injEq, Prod.mk.injEq] at this
        obtain ⟨_, hbp, hdd⟩ := this
        have key : L.ms[m]? = some a0 ∨ a0 = ({} : AMeas) := by
          rcases h0 with h0 | h0
          · rw [h0] at ha0; exact .inl ha0
          · rw [h0, List.getElem?_append] at ha0
            split at ha0
            · exact .inl ha0
            · right
              rw [List.getElem?_singleton] at ha0
              split at ha0
              · exact (Option.some.inj ha0).symm
              · cases ha0
        rw [hdd] at e
        have inold : ∀ c, a0.defs = c ++ (r, .fmul p (.meanOf n q)) :: es' → n = m ∧ q ∈ knownOf a.basePs es' := by
          intro c h2
          rcases key with key | rfl
          · rw [hbp]; exact ih m a0 c es' key h2
          · simp at h2
        rcases List.append_eq_append_iff.1 e with ⟨c, h1, h2⟩ | ⟨c, h1, h2⟩
        · exact .inl (inold c h2)
        · cases c with
          | nil => exact .inl (inold [] (by simpa using h2.symm))
          | cons x c =>
            simp only [List.cons_append, List.cons.injEq] at h2
            obtain ⟨rfl, h2⟩ := h2
            exact .inr ⟨a0, c, rfl, h1, h2, hbp⟩
    by_cases hmul : ∃ p q ord, o = .mul p q ord
    · obtain ⟨p', q', ord, rfl⟩ := hmul
      obtain ⟨D, hg, hsuf⟩ := mul_only iv.wf p' q' ord
      rcases old L D (.inl rfl) hg with h' | ⟨a0, c, h0, hD, he, hbp⟩
      · exact h'
      · have hsuf := hsuf m
        simp only at hsuf
        split at hsuf
        · next hcm =>
          obtain ⟨b, hb, hk⟩ := mem_common iv.wf.new hcm
          have : b = a0 := by
            have hb : L.ms[m]? = some b := hb
            rw [h0] at hb
            exact (Option.some.inj hb).symm
          subst this
          have hin : (r, ProcDef.fmul p (.meanOf n q)) ∈ (Op.mul p' q' ord).written L.gps.length m := by
            have := hsuf.subset (by rw [hD]; simp : (r, ProcDef.fmul p (.meanOf n q)) ∈ D m)
            simpa using this
          have hq : n = m ∧ (q = p' ∨ q = q') := by
            simp only [Op.written, List.mem_cons, Prod.mk.injEq, ProcDef.fmul.injEq, Fn.meanOf.injEq, reduceCtorEq, and_false, List.not_mem_nil,
              or_false, false_or] at hin
            rcases hin with h' | h'
            · exact ⟨h'.2.2.1, .inl h'.2.2.2⟩
            · exact ⟨h'.2.2.1, .inr h'.2.2.2⟩
          refine ⟨hq.1, ?_⟩
          have hqa : q ∈ b.ps := hk q (by rcases hq.2 with rfl | rfl <;> simp)
          unfold AMeas.ps at hqa
          rw [mem_knownOf] at hqa ⊢
          rw [hbp, he]
          exact hqa.imp_right fun h' => by rw [List.map_append, List.mem_append]; exact .inr h'
        · next hcm =>
          have : D m = [] := List.suffix_nil.1 hsuf
          rw [this] at hD
          simp at hD
    · obtain ⟨L0, h0, D, hg, hsuf⟩ := op_within iv.wf o fun m obs h => hc ⟨m, obs, h⟩
      rcases old L0 D h0 hg with h' | ⟨a0, c, -, hD, -, -⟩
      · exact h'
      · have hin : (r, ProcDef.fmul p (.meanOf n q)) ∈ o.written L.gps.length m := by
          have := (hsuf m).subset (by rw [hD]; simp : (r, ProcDef.fmul p (.meanOf n q)) ∈ D m)
          simpa using this
        exfalso
        cases o <;> simp only [Op.written, List.mem_cons, List.not_mem_nil, or_false, Prod.mk.injEq, reduceCtorEq, and_false, ProcDef.fmul.injEq] at hin
        case fmul p' f => obtain ⟨-, -, rfl⟩ := hin; exact ho
        case mul p' q' ord => exact hmul ⟨p', q', ord, rfl⟩

/-- Elementary programs reach elementary states. -/
theorem elem_reach {ops : List Op} (h : ∀ o ∈ ops, o.Elem) : (specOps ops {}).Elem where
  wf := (Inv.reach ops).wf.ms
  defs := defs_from (fun e => e.2.Elem) ops fun before o after e m => written_elem (h o (by rw [e]; simp)) _ m
  means := means_from ops h

/-- Elementary programs whose observations have values and noise of the right size, with positive semi-definite covariance, have a reading. -/
theorem canon_reads {ops : List Op} (h : ∀ o ∈ ops, o.Elem)
    (hs : ∀ before m obs after, ops = before ++ .condition m obs :: after → HasMeasure (runOps before {}) m →
      obs.Sized ((canon (specOps ops {})).F m) ∧ obs.PosNoise ((canon (specOps ops {})).F m)) :
    (canon (specOps ops {})).Reads ops := by
  have hs' : ∀ (m : MId) a u, (specOps ops {}).ms[m]? = some a → a.base = some u →
      u.obs.Sized ((canon (specOps ops {})).F u.prior) ∧ u.obs.PosNoise ((canon (specOps ops {})).F u.prior) := by
    intro m a u ha hu
    obtain ⟨before, after, e, hm, _⟩ := base_from ops m a u ha hu
    exact hs before u.prior u.obs after e hm
  have hz : (specOps ops {}).Sized := fun m a u ha hu => (hs' m a u ha hu).1
  exact (canon_laws (elem_reach h) hz (canon_pos (elem_reach h).wf hz fun m a u ha hu => (hs' m a u ha hu).2)).reads

end Stheno
