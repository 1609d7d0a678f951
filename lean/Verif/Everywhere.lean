import Verif.Program
import Verif.Calls

/-!
# A process is what the user wrote in every measure it is in

The laws of a reading are about the measures to which a process is attached when it is created. This file shows that
they hold in all posteriors, of any height, too.
-/

namespace Stheno

/-- An operation does not define a process that is already attached somewhere. -/
theorem op_defs_old {L : AWorld} (wf : Wf L) (o : Op) {m m1 : MId} {a a1 : AMeas} {r : PId}
    (h1 : L.ms[m1]? = some a1) (hr1 : r ∈ a1.ps) (ha : (o.specAfter L).ms[m]? = some a) (hr : r ∈ a.defs.map (·.1)) :
    ∃ a0, L.ms[m]? = some a0 ∧ r ∈ a0.defs.map (·.1) := by
  by_cases hc : ∃ m obs, o = .condition m obs
  · obtain ⟨m', obs, rfl⟩ := hc
    cases hb : L.ms[m']? with
    | none => rw [condition_spec_none hb] at ha; exact ⟨a, ha, hr⟩
    | some b =>
      rw [condition_spec hb] at ha
      change (L.ms ++ [_])[m]? = _ at ha
      rw [List.getElem?_append] at ha
      split at ha
      · exact ⟨a, ha, hr⟩
      · rw [List.getElem?_singleton] at ha
        split at ha
        · cases ha; simp at hr
        · cases ha
  · obtain ⟨L0, h0, D, hg, hsuf⟩ := op_within wf o fun m obs h => hc ⟨m, obs, h⟩
    have := hg m
    rw [ha] at this
    cases ha0 : L0.ms[m]? with
    | none => rw [ha0] at this; cases this
    | some a0 =>
      rw [ha0] at this
      simp only [Option.map_some, AMeas.core, Option.some.injEq, Prod.mk.injEq] at this
      obtain ⟨_, _, hdd⟩ := this
      rw [hdd, List.map_append, List.mem_append] at hr
      rcases hr with hr | hr
      · obtain ⟨e, he, rfl⟩ := List.mem_map.1 hr
        have hge := written_ge o L.gps.length m e (by simpa using (hsuf m).subset he)
        obtain ⟨l, hl, _⟩ := wf.mem_gps m1 a1 h1 e.1 hr1
        have := (List.getElem?_eq_some_iff.1 hl).1
        omega
      · have key : L.ms[m]? = some a0 ∨ a0 = ({} : AMeas) := by
          rcases h0 with h0 | h0
          · rw [h0] at ha0; exact .inl ha0
          · rw [h0, List.getElem?_append] at ha0
            split at ha0
            · exact .inl ha0
            · right
              rw [List.getElem?_singleton] at ha0
              split at ha0
              · exact (Option.some.inj ha0).symm
              · cases ha0
        rcases key with key | rfl
        · exact ⟨a0, key, hr⟩
        · simp at hr

theorem ops_defs_old (before : List Op) : ∀ (after : List Op) {m m1 : MId} {a : AMeas} {r : PId},
    Attached (runOps before {}) m1 r → (specOps (before ++ after) {}).ms[m]? = some a → r ∈ a.defs.map (·.1) →
    ∃ a0, (specOps before {}).ms[m]? = some a0 ∧ r ∈ a0.defs.map (·.1) := by
  intro after
  induction after using List.reverseRecOn with
  | nil => intro m m1 a r _ ha hr; exact ⟨a, by simpa using ha, hr⟩
  | append_singleton after o ih =>
    intro m m1 a r h1 ha hr
    have iv := Inv.reach (before ++ after)
    have hs : specOps (before ++ (after ++ [o])) {} = o.specAfter (specOps (before ++ after) {}) := by
      rw [← List.append_assoc, specOps_append]; rfl
    rw [hs] at ha
    obtain ⟨a1, h1', hr1⟩ := (Inv.reach before).attached.1 h1
    obtain ⟨a1', h1'', _, hbp, hsuf⟩ := ops_grow before after h1'
    have hr1' : r ∈ a1'.ps := by
      rw [AMeas.ps, mem_knownOf] at hr1 ⊢
      rw [hbp]
      exact hr1.imp id fun h => List.map_subset _ hsuf.subset h
    obtain ⟨a0, ha0, hr0⟩ := op_defs_old iv.wf o h1'' hr1' ha hr
    exact ih h1 ha0 hr0

/-- Processes of the prior at the time of conditioning come before later ones. -/
theorem base_prefix (ops : List Op) {m : MId} {a : AMeas} {u : URule} (ha : (specOps ops {}).ms[m]? = some a)
    (hu : a.base = some u) : ∃ b, (specOps ops {}).ms[u.prior]? = some b ∧ a.basePs <+: b.ps := by
  obtain ⟨before, after, e, hm, _, hps⟩ := base_from ops m a u ha hu
  have iv := Inv.reach before
  have hlt : u.prior < (specOps before {}).ms.length := by rw [← iv.rel.len]; exact hm
  have hb0 : (specOps before {}).ms[u.prior]? = some _ := List.getElem?_eq_getElem hlt
  obtain ⟨b, hb, _, hbp, t, ht⟩ := ops_grow before (.condition u.prior u.obs :: after) hb0
  refine ⟨b, by rw [e]; exact hb, ?_⟩
  rw [hps, iv.members hb0]
  refine ⟨(t.map (·.1)).reverse, ?_⟩
  unfold AMeas.ps knownOf
  rw [hbp, ← ht, List.map_append, List.reverse_append, List.append_assoc]

section
variable {V : Type} [AddCommGroup V] [Module ℝ V] {I : Interp V}

theorem prefix_of_nodup {α : Type} {p l1 l2 : List α} {r : α} (h : p <+: l1 ++ r :: l2) (hn : (l1 ++ r :: l2).Nodup)
    (hr : r ∈ p) : ∃ l, p = l1 ++ r :: l := by
  obtain ⟨t, ht⟩ := h
  have hr1 : r ∉ l1 := fun h1 => (List.nodup_append.1 hn).2.2 r h1 r (by simp) rfl
  rcases List.append_eq_append_iff.1 ht with ⟨c, h1, h2⟩ | ⟨c, h1, h2⟩
  · exact (hr1 (h1 ▸ List.mem_append_left _ hr)).elim
  · cases c with
    | nil => rw [List.append_nil] at h1; exact (hr1 (h1 ▸ hr)).elim
    | cons x c =>
      rw [List.cons_append] at h2
      injection h2 with h2 _
      exact ⟨c, by rw [h1, h2]⟩

/-- Every process in a measure has a definition in it or in a measure below it, where it and all processes before it
have the same values. -/
theorem Interp.Reads.source {ops : List Op} (h : I.Reads ops) : ∀ (m : MId) (a : AMeas),
    (specOps ops {}).ms[m]? = some a → ∀ r ∈ a.ps, ∃ (m0 : MId) (a0 : AMeas) (es : List (PId × ProcDef)) (d : ProcDef)
      (es' : List (PId × ProcDef)) (l1 l2 : List PId),
      (specOps ops {}).ms[m0]? = some a0 ∧ a0.defs = es ++ (r, d) :: es' ∧ I.F m r = I.F m0 r ∧
      a.ps = l1 ++ r :: l2 ∧ ∀ q ∈ knownOf a0.basePs es', q ∈ l1 ∧ I.F m q = I.F m0 q := by
  have hl := h.laws
  have wf := (Inv.reach ops).wf.ms
  intro m
  induction m using Nat.strong_induction_on with
  | _ m ih =>
    intro a ha r hr
    rw [AMeas.ps, mem_knownOf] at hr
    by_cases hd : r ∈ a.defs.map (·.1)
    · obtain ⟨⟨r', d⟩, he, rfl⟩ := List.mem_map.1 hd
      obtain ⟨es, es', e⟩ := List.append_of_mem he
      refine ⟨m, a, es, d, es', knownOf a.basePs es', (es.map (·.1)).reverse, ha, e, rfl, ?_, fun q hq => ⟨hq, rfl⟩⟩
      rw [AMeas.ps, knownOf, e]
      simp [knownOf]
    · have hr : r ∈ a.basePs := hr.resolve_right hd
      have h0 := wf m a ha
      cases hb : a.base with
      | none => rw [h0.base_none hb] at hr; simp at hr
      | some u =>
        obtain ⟨b, hb', hpre⟩ := base_prefix ops ha hb
        obtain ⟨hF, _⟩ := hl.post m a u ha hb
        obtain ⟨m0, a0, es, d, es', l1, l2, ha0, e, hFr, hps, hk⟩ := ih u.prior (h0.base_lt u hb) b hb' r (hpre.subset hr)
        have hn := (wf u.prior b hb').nodup
        rw [hps] at hpre hn
        obtain ⟨l, hl⟩ := prefix_of_nodup hpre hn hr
        refine ⟨m0, a0, es, d, es', l1, l ++ (a.defs.map (·.1)).reverse, ha0, e, (hF r hr).trans hFr, ?_, fun q hq => ?_⟩
        · rw [AMeas.ps, knownOf, hl]; simp
        · exact ⟨(hk q hq).1, (hF q (by rw [hl]; exact List.mem_append_left _ (hk q hq).1)).trans (hk q hq).2⟩

/-- The definition of the process an operation makes, if it makes one. -/
def Op.makes : Op → Option ProcDef
  | .gp mean kernel _ _ => some (.indep mean kernel)
  | .addFn p f => some (.addFn p f)
  | .add p q _ => some (.sum p q)
  | .scale p c => some (.scale p c)
  | .fmul p f => some (.fmul p f)
  | .pre p t => some (.pre p t)
  | .diff p d => some (.diff p d)
  | .cross ps _ => some (.cross ps)
  | .addGP _ mean kernel left _ => some (.custom mean kernel left)
  | .call _ p => some (.copy p)
  | _ => none

theorem Op.makes_written {o : Op} {d : ProcDef} (h : o.makes = some d) (n : ℕ) (m : MId) : o.written n m = [(n, d)] := by
  cases o <;> simp only [Op.makes, Option.some.injEq, reduceCtorEq] at h <;> (subst h; rfl)

/-- The program runs `o` after `before`, and the first process it makes is `r`, which is attached to some measure. -/
structure Runs (ops before : List Op) (o : Op) (r : PId) : Prop where
  split : ∃ after, ops = before ++ o :: after
  id : r = (runOps before {}).gps.length
  attached : ∃ m, Attached (runOps (before ++ [o]) {}) m r

/-- The same, and the process stands for `d`. -/
structure Makes (ops before : List Op) (o : Op) (r : PId) (d : ProcDef) : Prop extends Runs ops before o r where
  makes : o.makes = some d

theorem Runs.of {ops before : List Op} {o : Op} {r : PId} {d : ProcDef} (h : Runs ops before o r)
    (e : o.makes = some d) : Makes ops before o r d := ⟨h, e⟩

/-- Wherever a process has a definition, it is what the operation that made it wrote. -/
theorem Makes.defs_eq {ops before : List Op} {o : Op} {d d0 : ProcDef} {r : PId} (hm : Makes ops before o r d) {m0 : MId}
    {a0 : AMeas} (ha0 : (specOps ops {}).ms[m0]? = some a0) {es es' : List (PId × ProcDef)}
    (hd : a0.defs = es ++ (r, d0) :: es') : d0 = d := by
  obtain ⟨⟨⟨after, e⟩, hid, m1, hat⟩, hmk⟩ := hm
  have iv := Inv.reach ops
  have e' : ops = (before ++ [o]) ++ after := by rw [e]; simp
  have hrd : r ∈ a0.defs.map (·.1) := by rw [hd]; simp
  obtain ⟨a1, ha1, hr1⟩ := ops_defs_old (before ++ [o]) after hat (by rw [← e']; exact ha0) hrd
  have hat0 : Attached (runOps (before ++ [o]) {}) m0 r := by
    refine (Inv.reach (before ++ [o])).attached.2 ⟨a1, ha1, ?_⟩
    rw [AMeas.ps, mem_knownOf]; exact .inr hr1
  have hw : o.written (runOps before {}).gps.length m0 = [] ++ (r, d) :: [] := by
    rw [Op.makes_written hmk, hid]; rfl
  obtain ⟨a2, es2, es2', ha2, hd2, hk2⟩ := written_attached hw hat0
  obtain ⟨a3, ha3, _, hbp3, t, ht⟩ := ops_grow (before ++ [o]) after ha2
  rw [← e', ha0] at ha3
  cases ha3
  have hn := (iv.wf.ms m0 a0 ha0).nodup
  rw [AMeas.ps, knownOf, List.nodup_append] at hn
  have hn := List.nodup_reverse.1 hn.2.1
  have e1 : a0.defs = (t ++ es2) ++ (r, d) :: es2' := by rw [← ht, hd2]; simp
  have hn' := hn
  rw [e1] at hn'
  obtain ⟨l, hl⟩ := suffix_of_nodup (l := (r, d0) :: es') hn' (by rw [← e1, hd]; exact List.suffix_append _ _) (by simp)
  cases l with
  | nil =>
    injection hl with h1 h2
    injection h1 with _ h1
  | cons x l =>
    rw [List.cons_append] at hl
    injection hl with h1 h2
    rw [hd, h2] at hn
    simp only [List.map_append, List.map_cons] at hn
    exact ((List.nodup_cons.1 (List.nodup_append.1 hn).2.1).1 (by simp)).elim

/-- A process is what the user wrote in every measure it is in: there is a measure in which its definition is a law,
and in which it and what it is made of have the same values. -/
theorem Interp.Reads.everywhere {ops before : List Op} {o : Op} {d : ProcDef} {r : PId} (h : I.Reads ops)
    (hm : Makes ops before o r d) {m : MId} (hr : Attached (runOps ops {}) m r) :
    ∃ (m0 : MId) (known : List PId), I.DefLaw (meanAt (runOps ops {})) (kernelAt (runOps ops {})) m0 known r d ∧
      I.F m r = I.F m0 r ∧ (∀ q ∈ known, I.F m q = I.F m0 q) ∧ ∀ q ∈ d.refs, q ∈ known ∧
        Attached (runOps ops {}) m q := by
  have iv := Inv.reach ops
  obtain ⟨a, ha, hra⟩ := iv.attached.1 hr
  obtain ⟨m0, a0, es, d0, es', l1, l2, ha0, hd, hF, hps, hk⟩ := h.source m a ha r hra
  have e := hm.defs_eq ha0 hd
  subst e
  have hlaw := h.laws.defs m0 a0 es r d0 es' ha0 hd
  refine ⟨m0, knownOf a0.basePs es', ?_, hF, fun q hq => (hk q hq).2, fun q hq => ?_⟩
  · have em : meanAt (runOps ops {}) = (specOps ops {}).mean := by funext m i; exact iv.meanAt m i
    have ek : kernelAt (runOps ops {}) = (specOps ops {}).kernel := by funext m i j; exact iv.kernelAt m i j
    rw [em, ek]
    exact hlaw
  · have hq' := scoped_refs (iv.wf.ms m0 a0 ha0).inScope hd q hq
    refine ⟨hq', iv.attached.2 ⟨a, ha, ?_⟩⟩
    rw [hps]
    exact List.mem_append_left _ (hk q hq').1

/-! ## The equations -/

section
variable {ops before : List Op} {o : Op} {m : MId} {r p q : PId} (h : I.Reads ops)
  (hr : Attached (runOps ops {}) m r)
include h hr

/-- What a process is made of is in every measure the process is in. -/
theorem Interp.Reads.refs {d : ProcDef} (hm : Makes ops before o r d) : ∀ q ∈ d.refs, Attached (runOps ops {}) m q := by
  obtain ⟨_, _, _, _, _, hq⟩ := h.everywhere hm hr
  exact fun q h => (hq q h).2

/-- `p + q` is the pointwise sum. -/
theorem Interp.Reads.sum (hm : Makes ops before o r (.sum p q)) {x : Input} (hx : x.IsAtom) : I.F m r x = (do
    let vs ← I.F m p x
    let ws ← I.F m q x
    zipAdd vs ws) := by
  obtain ⟨m0, known, hl, hF, hk, hq⟩ := h.everywhere hm hr
  rw [hF, hl x hx, hk p (hq p (by simp [ProcDef.refs])).1, hk q (hq q (by simp [ProcDef.refs])).1]

/-- `p * c` is the pointwise multiple. -/
theorem Interp.Reads.scale {c : ℝ} (hm : Makes ops before o r (.scale p c)) {x : Input} (hx : x.IsAtom) :
    I.F m r x = (I.F m p x).map (·.map (c • ·)) := by
  obtain ⟨m0, known, hl, hF, hk, hq⟩ := h.everywhere hm hr
  rw [hF, hl x hx, hk p (hq p (by simp [ProcDef.refs])).1]

/-- `p + f` is the pointwise sum. -/
theorem Interp.Reads.addFn {f : Fn} (hm : Makes ops before o r (.addFn p f)) {x : Input} (hx : x.IsAtom) :
    I.F m r x = (do
      let vs ← I.F m p x
      let us ← I.fnAt f x vs.length
      pure (List.zipWith (fun v u => v + u • I.one) vs us)) := by
  obtain ⟨m0, known, hl, hF, hk, hq⟩ := h.everywhere hm hr
  rw [hF, hl x hx, hk p (hq p (by simp [ProcDef.refs])).1]

/-- `f * p` is the pointwise product. -/
theorem Interp.Reads.fmul {f : Fn} (hm : Makes ops before o r (.fmul p f)) {x : Input} (hx : x.IsAtom) :
    I.F m r x = (do
      let vs ← I.F m p x
      let us ← I.fnAt f x vs.length
      pure (List.zipWith (fun v u => u • v) vs us)) := by
  obtain ⟨m0, known, hl, hF, hk, hq⟩ := h.everywhere hm hr
  rw [hF, hl x hx, hk p (hq p (by simp [ProcDef.refs])).1]

/-- Input transformations transform the argument. -/
theorem Interp.Reads.pre {t : InTr} (hm : Makes ops before o r (.pre p t)) {x : Input} (hx : x.IsAtom) :
    I.F m r x = (do I.F m p (← t.apply x)) := by
  obtain ⟨m0, known, hl, hF, hk, hq⟩ := h.everywhere hm hr
  rw [hF, hl x hx, hk p (hq p (by simp [ProcDef.refs])).1]

/-- `cross` concatenates, and picks from FDDs. -/
theorem Interp.Reads.cross {ps : List PId} (hm : Makes ops before o r (.cross ps)) :
    (∀ xs, I.F m r (.num xs) = (ps.mapM fun p => I.F m p (.num xs)).map List.flatten) ∧
    ∀ p ∈ ps, ∀ x, I.F m r (.fdd p x) = I.F m p x := by
  obtain ⟨m0, known, hl, hF, hk, hq⟩ := h.everywhere hm hr
  have hk' : ∀ p ∈ ps, I.F m p = I.F m0 p := fun p hp => hk p (hq p (by simpa [ProcDef.refs] using hp)).1
  refine ⟨fun xs => ?_, fun p hp x => ?_⟩
  · rw [hF, hl.1 xs]
    congr 1
    clear hl hq hm
    induction ps with
    | nil => rfl
    | cons p ps ih =>
      rw [List.mapM_cons, List.mapM_cons, hk' p (by simp), ih fun p hp => hk' p (by simp [hp])]
  · rw [hF, hl.2 p x, if_pos hp, hk' p hp]

/-- `measure(p)` is `p`. -/
theorem Interp.Reads.copy (hm : Makes ops before o r (.copy p)) : I.F m r = I.F m p := by
  obtain ⟨m0, known, hl, hF, hk, hq⟩ := h.everywhere hm hr
  rw [hF, hl, hk p (hq p (by simp [ProcDef.refs])).1]

end

end

end Stheno
