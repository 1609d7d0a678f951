import Verif.Props.Graph

/-!
# Properties of names and default measures: C30, C31
-/

namespace Stheno

/-! ## C30 -/

theorem gpNamed_none {w : World} {m : MId} (h : ¬ HasMeasure w m) (n : String) : gpNamed w m n = none := by
  have : w.ms[m]? = none := List.getElem?_eq_none (Nat.le_of_not_lt h)
  simp only [gpNamed, byName, Bind.bind, EStateM.bind, getMeas, this]

theorem nameAt_none {w : World} {m : MId} (h : ¬ HasMeasure w m) (p : PId) : nameAt w m p = none := by
  have : w.ms[m]? = none := List.getElem?_eq_none (Nat.le_of_not_lt h)
  simp only [nameAt, nameOf, Bind.bind, EStateM.bind, getMeas, this]

theorem Inv.hasMeasure {w : World} {L : AWorld} (h : Inv w L) {m : MId} (hm : HasMeasure w m) :
    ∃ a, L.ms[m]? = some a :=
  ⟨_, List.getElem?_eq_getElem (by rw [← h.rel.len]; exact hm)⟩

/-- **C30, correspondence.** After any program, also one in which namings were refused, `measure[name]`
is `p` if and only if `measure[p]` is `name`. -/
theorem C30_bijection (ops : List Op) (m : MId) (p : PId) (n : String) :
    gpNamed (runOps ops {}) m n = some p ↔ nameAt (runOps ops {}) m p = some n := by
  have hi := Inv.reach ops
  by_cases hm : HasMeasure (runOps ops {}) m
  · obtain ⟨a, ha⟩ := hi.hasMeasure hm
    have hn := hi.wf.names m a ha
    rw [hi.gpNamed ha, hi.nameAt ha, hn.byName, hn.byGp]
  · rw [gpNamed_none hm, nameAt_none hm]; simp

/-- **C30, no two processes share a name.** -/
theorem C30_injective (ops : List Op) (m : MId) (p q : PId) (n : String)
    (hp : nameAt (runOps ops {}) m p = some n) (hq : nameAt (runOps ops {}) m q = some n) : p = q := by
  rw [← C30_bijection] at hp hq
  rw [hp] at hq
  exact Option.some.inj hq

example : nameAt (runOps demo {}) 0 1 = some "g" := (C30_bijection demo 0 1 "g").1 rfl

theorem name_after {w : World} {L : AWorld} (hi : Inv w L) {m : MId} {a : AMeas} (ha : L.ms[m]? = some a)
    (p : PId) (n : String) (b : AMeas)
    (h : (Op.name m p n).specAfter L = L.mod m (fun _ => b)) :
    (∀ r, nameAt ((Op.name m p n).after w) m r = b.namesByGp.lookup r) ∧
      (∀ s, gpNamed ((Op.name m p n).after w) m s = b.gpsByName.lookup s) ∧
      ∀ m', m' ≠ m → (∀ r, nameAt ((Op.name m p n).after w) m' r = nameAt w m' r) ∧
        (∀ s, gpNamed ((Op.name m p n).after w) m' s = gpNamed w m' s) := by
  have hi' := (hi.after (.name m p n)).1
  rw [h] at hi'
  have hb : (L.mod m (fun _ => b)).ms[m]? = some b := by rw [mod_ms, if_pos rfl, ha]; rfl
  have hlen : ((Op.name m p n).after w).ms.length = w.ms.length := by
    rw [hi'.rel.len, hi.rel.len]; simp [AWorld.mod]
  refine ⟨fun r => hi'.nameAt hb r, fun s => hi'.gpNamed hb s, fun m' hne => ?_⟩
  by_cases hm : HasMeasure w m'
  · obtain ⟨a', ha'⟩ := hi.hasMeasure hm
    have hb' : (L.mod m (fun _ => b)).ms[m']? = some a' := by
      rw [mod_ms, if_neg (Ne.symm hne), ha']
    exact ⟨fun r => by rw [hi'.nameAt hb', hi.nameAt ha'], fun s => by rw [hi'.gpNamed hb', hi.gpNamed ha']⟩
  · have hm' : ¬ HasMeasure ((Op.name m p n).after w) m' := by unfold HasMeasure; rw [hlen]; exact hm
    exact ⟨fun r => by rw [nameAt_none hm', nameAt_none hm],
      fun s => by rw [gpNamed_none hm', gpNamed_none hm]⟩

theorem mod_const {L : AWorld} {m : MId} {a : AMeas} (ha : L.ms[m]? = some a) (f : AMeas → AMeas) :
    L.mod m f = L.mod m (fun _ => f a) := by
  simp only [AWorld.mod]
  congr 1
  apply List.ext_getElem?
  intro j
  rw [List.getElem?_modify, List.getElem?_modify]
  by_cases hj : m = j
  · subst hj; simp [ha]
  · simp [hj]

/-- **C30, taken names.** Naming `p` with a name that another process of the measure has raises a
`RuntimeError`, and no other process gains or loses a name, in any measure. -/
theorem C30_taken (ops : List Op) (m : MId) (p q : PId) (n : String)
    (hq : gpNamed (runOps ops {}) m n = some q) (hne : q ≠ p) :
    let w := runOps ops {}
    let w' := (Op.name m p n).after w
    (Op.name m p n).raises w = some .runtime ∧ gpNamed w' m n = some q ∧
      (∀ r, r ≠ p → nameAt w' m r = nameAt w m r) ∧
      ∀ m', m' ≠ m → ∀ r, nameAt w' m' r = nameAt w m' r := by
  intro w w'
  have hi : Inv w (specOps ops {}) := Inv.reach ops
  have hm : HasMeasure w m := by
    by_contra h
    rw [gpNamed_none h] at hq; cases hq
  obtain ⟨a, ha⟩ := hi.hasMeasure hm
  have hn := hi.wf.names m a ha
  rw [hi.gpNamed ha] at hq
  have hs := setName_spec ha p n
  rw [if_pos ((isSome_lookup_unname hn).2 ⟨q, hne, hq⟩)] at hs
  have hafter : (Op.name m p n).specAfter (specOps ops {}) =
      (specOps ops {}).mod m (fun _ => a.unname p) := by
    rw [← mod_const ha (·.unname p)]
    unfold Op.specAfter
    simp only [Op.spec, hs]
  obtain ⟨h1, h2, h3⟩ := name_after hi ha p n _ hafter
  have hn' := (namesOK_unname hn p).1
  refine ⟨?_, ?_, fun r hr => ?_, fun m' hm' r => (h3 m' hm').1 r⟩
  · rw [hi.raises]; simp only [Op.spec, hs]
  · rw [h2, hn'.byName, mem_unname hn]; exact ⟨hn.byName.1 hq, hne⟩
  · rw [h1, hi.nameAt ha]
    apply Option.ext
    intro s
    rw [hn'.byGp, hn.byGp, mem_unname hn]
    exact ⟨fun h => h.1, fun h => ⟨h, hr⟩⟩

example : (Op.name 0 2 "g").raises (runOps demo {}) = some .runtime :=
  (C30_taken demo 0 2 1 "g" rfl (by decide)).1

/-- **C30, free names.** Naming `p` with a name that no other process of the measure has succeeds: the name
then leads to `p`, the old name of `p` is free, and no other process gains or loses a name. -/
theorem C30_rename (ops : List Op) (m : MId) (p : PId) (n : String) (hm : HasMeasure (runOps ops {}) m)
    (hq : ∀ q, gpNamed (runOps ops {}) m n = some q → q = p) :
    let w := runOps ops {}
    let w' := (Op.name m p n).after w
    (Op.name m p n).raises w = none ∧ gpNamed w' m n = some p ∧ nameAt w' m p = some n ∧
      (∀ old, old ≠ n → nameAt w m p = some old → gpNamed w' m old = none) ∧
      (∀ r, r ≠ p → nameAt w' m r = nameAt w m r) ∧
      ∀ m', m' ≠ m → ∀ r, nameAt w' m' r = nameAt w m' r := by
  intro w w'
  have hi : Inv w (specOps ops {}) := Inv.reach ops
  obtain ⟨a, ha⟩ := hi.hasMeasure hm
  have hn := hi.wf.names m a ha
  have hs := setName_spec ha p n
  rw [if_neg (fun h => by
    obtain ⟨q, hne, hq'⟩ := (isSome_lookup_unname hn).1 h
    exact hne (hq q (by rw [hi.gpNamed ha]; exact hq')))] at hs
  have hafter : (Op.name m p n).specAfter (specOps ops {}) =
      (specOps ops {}).mod m (fun _ => a.named p n) := by
    rw [← mod_const ha (·.named p n)]
    unfold Op.specAfter
    simp only [Op.spec, hs]
  obtain ⟨h1, h2, h3⟩ := name_after hi ha p n _ hafter
  have hn' := (namesOK_unname hn p).1
  refine ⟨?_, ?_, ?_, fun old hold ho => ?_, fun r hr => ?_, fun m' hm' r => (h3 m' hm').1 r⟩
  · rw [hi.raises]; simp only [Op.spec, hs]
  · rw [h2]; simp [AMeas.named]
  · rw [h1]; simp [AMeas.named]
  · rw [h2]
    rw [hi.nameAt ha, hn.byGp] at ho
    have : (old == n) = false := by simpa using hold
    simp only [AMeas.named, List.lookup, this]
    cases hl : (a.unname p).gpsByName.lookup old with
    | none => rfl
    | some q =>
      rw [hn'.byName, mem_unname hn] at hl
      have := List.inj_on_of_nodup_map hn.2.1 hl.1 ho rfl
      cases this
      exact absurd rfl hl.2
  · rw [h1, hi.nameAt ha]
    have : (r == p) = false := by simpa using hr
    simp only [AMeas.named, List.lookup, this]
    apply Option.ext
    intro s
    rw [hn'.byGp, hn.byGp, mem_unname hn]
    exact ⟨fun h => h.1, fun h => ⟨h, hr⟩⟩

/-- Renaming process 1 of `demo` from "g" to "h". -/
example : gpNamed ((Op.name 0 1 "h").after (runOps demo {})) 0 "h" = some 1 ∧
    gpNamed ((Op.name 0 1 "h").after (runOps demo {})) 0 "g" = none := by
  obtain ⟨_, h1, _, h2, _⟩ := C30_rename demo 0 1 "h"
    (by show 0 < _; exact Nat.lt_of_sub_eq_succ rfl) (fun q hq => by
      have : gpNamed (runOps demo {}) 0 "h" = none := rfl
      rw [this] at hq; cases hq)
  exact ⟨h1, h2 "g" (by decide) rfl⟩

/-- Two processes with names in one measure. -/
noncomputable def namesDemo : List Op :=
  [.gp .zero (.prim fun _ _ => 2) none (some "f"), .gp .zero (.prim fun _ _ => 3) (some 0) (some "g")]

/-- **C30, what a refused naming does to the process itself.** The name the process had before is lost: a
refused `measure.name(p, taken)` is not atomic (`stheno/model/measure.py:79-87`). -/
theorem C30_refusal_loses_name :
    nameAt (runOps namesDemo {}) 0 0 = some "f" ∧
    (Op.name 0 0 "g").raises (runOps namesDemo {}) = some .runtime ∧
    nameAt ((Op.name 0 0 "g").after (runOps namesDemo {})) 0 0 = none := ⟨rfl, rfl, rfl⟩

/-- **C30, a constructor that raises.** `GP(kernel, measure=m, name=taken)` raises, but the process has been
added to the measure. -/
theorem C30_constructor_leaks :
    (Op.gp .zero .zero (some 0) (some "f")).raises (runOps namesDemo {}) = some .runtime ∧
    Attached ((Op.gp .zero .zero (some 0) (some "f")).after (runOps namesDemo {})) 0 2 :=
  ⟨rfl, attached_iff.2 rfl⟩

/-! ## C31 -/

/-- Operations other than entering and leaving contexts. -/
def Op.isContext : Op → Bool
  | .enter _ | .exit _ => true
  | _ => false

/-- Properly nested programs: `with m:` blocks over measures that exist and are not active already.
`act` are the measures that are active outside of the program, `w` the heap it starts from. -/
inductive Nested : List MId → World → List Op → Prop where
  | nil {act w} : Nested act w []
  | op {act w o ops} : o.isContext = false → Nested act (o.after w) ops → Nested act w (o :: ops)
  | block {act w m body ops} : m ∉ act → HasMeasure w m →
      Nested (m :: act) ((Op.enter m).after w) body →
      Nested act (runOps (Op.enter m :: body ++ [Op.exit m]) w) ops →
      Nested act w (Op.enter m :: body ++ Op.exit m :: ops)

theorem enter_spec {L : AWorld} {m : MId} {a : AMeas} (ha : L.ms[m]? = some a) :
    (Op.enter m).specAfter L =
      { L.mod m (fun a => { a with prevDefault := L.default }) with default := some m } := by
  unfold Op.specAfter
  simp only [Op.spec, aEnter, Bind.bind, EStateM.bind, aGetMeas, ha]
  rfl

theorem exit_spec {L : AWorld} {m : MId} {a : AMeas} (ha : L.ms[m]? = some a) :
    (Op.exit m).specAfter L = { L with default := a.prevDefault } := by
  unfold Op.specAfter
  simp only [Op.spec, aExit, Bind.bind, EStateM.bind, aGetMeas, ha]
  rfl

/-- The defaults saved by active measures. -/
def SavedSame (act : List MId) (L L' : AWorld) : Prop :=
  ∀ m ∈ act, ∀ a, L.ms[m]? = some a → ∃ a', L'.ms[m]? = some a' ∧ a'.prevDefault = a.prevDefault

theorem Nested.restores {act : List MId} {w : World} {ops : List Op} (hn : Nested act w ops) :
    ∀ L, Inv w L → (specOps ops L).default = L.default ∧ SavedSame act L (specOps ops L) := by
  induction hn with
  | nil => exact fun L _ => ⟨rfl, fun m _ a ha => ⟨a, ha, rfl⟩⟩
  | @op act w o ops ho _ ih =>
    intro L hi
    obtain ⟨h1, h2⟩ := ih _ (hi.after o).1
    obtain ⟨h3, h4⟩ := sameDefault_op (o := o) (fun m e => by subst e; cases ho)
      (fun m e => by subst e; cases ho) L
    refine ⟨h1.trans h3, fun m hm a ha => ?_⟩
    obtain ⟨a', ha', e⟩ := h4 m a ha
    obtain ⟨a'', ha'', e'⟩ := h2 m hm a' ha'
    exact ⟨a'', ha'', e'.trans e⟩
  | @block act w m body ops hm hmeas _ _ ihb iho =>
    intro L hi
    obtain ⟨a, ha⟩ := hi.hasMeasure hmeas
    have hi1 := (hi.after (.enter m)).1
    have e1 := enter_spec ha
    obtain ⟨_, hs⟩ := ihb _ hi1
    have ha1 : ((Op.enter m).specAfter L).ms[m]? = some { a with prevDefault := L.default } := by
      rw [e1]
      show (L.mod m _).ms[m]? = _
      rw [mod_ms, if_pos rfl, ha]; rfl
    obtain ⟨a2, ha2, hp2⟩ := hs m (List.mem_cons_self ..) _ ha1
    have hi2 := (hi1.runOps body).1
    have hi3 := (hi2.after (.exit m)).1
    have e3 := exit_spec ha2
    have hw : runOps (Op.enter m :: body ++ [Op.exit m]) w =
        (Op.exit m).after (runOps body ((Op.enter m).after w)) := by
      show runOps (body ++ [Op.exit m]) ((Op.enter m).after w) = _
      rw [runOps_append]; rfl
    rw [hw] at iho
    obtain ⟨h4, h5⟩ := iho _ hi3
    have hL : specOps (Op.enter m :: body ++ Op.exit m :: ops) L =
        specOps ops ((Op.exit m).specAfter (specOps body ((Op.enter m).specAfter L))) := by
      show specOps (body ++ Op.exit m :: ops) ((Op.enter m).specAfter L) = _
      rw [specOps_append]; rfl
    rw [hL]
    refine ⟨h4.trans (by rw [e3]; exact hp2), fun m' hm' b hb => ?_⟩
    have hne : m ≠ m' := fun e => hm (e ▸ hm')
    have hb1 : ((Op.enter m).specAfter L).ms[m']? = some b := by
      rw [e1]
      show (L.mod m _).ms[m']? = _
      rw [mod_ms, if_neg hne, hb]
    obtain ⟨b2, hb2, hp⟩ := hs m' (List.mem_cons_of_mem _ hm') b hb1
    have hb3 : ((Op.exit m).specAfter (specOps body ((Op.enter m).specAfter L))).ms[m']? = some b2 := by
      rw [e3]; exact hb2
    obtain ⟨b4, hb4, hp'⟩ := h5 m' hm' b2 hb3
    exact ⟨b4, hb4, hp'.trans hp⟩

/-- **C31.** Running a properly nested program (blocks may contain anything, also operations that raise)
leaves the default measure what it was before, in every reachable state. -/
theorem C31_nested (pre ops : List Op) (act : List MId) (h : Nested act (runOps pre {}) ops) :
    (runOps (pre ++ ops) {}).default = (runOps pre {}).default := by
  have hi := Inv.reach pre
  have hi' := (hi.runOps ops).1
  rw [runOps_append, hi'.rel.default, hi.rel.default]
  exact (h.restores _ hi).1

/-- **C31, one block.** Inside of a `with m:` block, up to the next context operation, `m` is the default
measure, and a GP created without an explicit measure is attached to `m` only. -/
theorem C31_inside (pre body : List Op) (m : MId) (mean : MExpr) (kernel : KExpr)
    (hm : HasMeasure (runOps pre {}) m) (hb : ∀ o ∈ body, o.isContext = false) :
    let w := runOps (pre ++ Op.enter m :: body) {}
    w.default = some m ∧ (Op.gp mean kernel none none).raises w = none ∧
      groups ((Op.gp mean kernel none none).after w) w.gps.length = [m] := by
  intro w
  have hi0 := Inv.reach pre
  obtain ⟨a, ha⟩ := hi0.hasMeasure hm
  have hd : (specOps (pre ++ Op.enter m :: body) {}).default = some m := by
    rw [specOps_append]
    show (specOps body ((Op.enter m).specAfter _)).default = _
    rw [enter_spec ha]
    generalize hL : AWorld.mk _ _ _ = L
    have : L.default = some m := by rw [← hL]
    clear hL
    induction body generalizing L with
    | nil => exact this
    | cons o body ih =>
      apply ih (fun o ho => hb o (List.mem_cons_of_mem _ ho))
      have := (sameDefault_op (o := o) (fun m e => by
        have := hb o (List.mem_cons_self ..); rw [e] at this; cases this)
        (fun m e => by have := hb o (List.mem_cons_self ..); rw [e] at this; cases this) L).1
      rw [this]; assumption
  have hi : Inv w (specOps (pre ++ Op.enter m :: body) {}) := Inv.reach _
  have hw : w.default = some m := by rw [hi.rel.default]; exact hd
  have hrun : (Op.gp mean kernel none none).spec (specOps (pre ++ Op.enter m :: body) {}) = .ok () 
      (AWorld.push { specOps (pre ++ Op.enter m :: body) {} with
        gps := (specOps (pre ++ Op.enter m :: body) {}).gps ++ [[]] } m
        (specOps (pre ++ Op.enter m :: body) {}).gps.length (.indep mean kernel)) := by
    simp only [Op.spec, aInit, Bind.bind, EStateM.bind, aNewGP, aResolve, get, getThe, MonadStateOf.get,
      EStateM.get, hd, Pure.pure, EStateM.pure, aDefine, defMean, defKernel, Option.isSome_some, and_self,
      if_true, aNameNew]
  refine ⟨hw, ?_, ?_⟩
  · rw [hi.raises, hrun]
  · have hi' := (hi.after (.gp mean kernel none none)).1
    unfold Op.specAfter at hi'
    rw [hrun] at hi'
    unfold groups
    rw [hi'.rel.gps, hi.rel.gps]
    simp [AWorld.push]

/-- Two nested blocks, with an operation that raises inside. -/
noncomputable def nestedDemo : List Op :=
  [.enter 0, .gp .zero .zero none none, .enter 1, .getM 1 7, .gp .zero .zero none none, .exit 1,
   .gp .zero .zero none none, .exit 0]

theorem nestedDemo_nested : Nested [] (runOps [.newMeasure, .newMeasure] {}) nestedDemo := by
  refine Nested.block (m := 0) (body := [.gp .zero .zero none none, .enter 1, .getM 1 7,
    .gp .zero .zero none none, .exit 1, .gp .zero .zero none none]) (ops := []) (by simp) ?_ ?_ .nil
  · show 0 < _; exact Nat.lt_of_sub_eq_succ rfl
  · refine Nested.op rfl (Nested.block (m := 1) (body := [.getM 1 7, .gp .zero .zero none none])
      (ops := [.gp .zero .zero none none]) (by simp) ?_ (.op rfl (.op rfl .nil)) (.op rfl .nil))
    show 1 < _; exact Nat.lt_of_sub_eq_succ rfl

example : (runOps ([.newMeasure, .newMeasure] ++ nestedDemo) {}).default = none ∧
    groups (runOps ([.newMeasure, .newMeasure] ++ nestedDemo) {}) 1 = [1] ∧
    groups (runOps ([.newMeasure, .newMeasure] ++ nestedDemo) {}) 2 = [0] :=
  ⟨C31_nested _ _ _ nestedDemo_nested, rfl, rfl⟩

example : groups ((Op.gp .zero .zero none none).after
    (runOps ([.newMeasure, .newMeasure] ++ [.enter 0, .gp .zero .zero (some 1) none]) {})) 1 = [0] :=
  (C31_inside [.newMeasure, .newMeasure] [.gp .zero .zero (some 1) none] 0 .zero .zero
    (by show 0 < _; exact Nat.lt_of_sub_eq_succ rfl) (by simp [Op.isContext])).2.2

/-- **C31, why the measures must be distinct.** `with m:` inside of `with m:` leaves `m` as the default
measure after both blocks (`_prev_default` is overwritten, `stheno/model/measure.py:49-55`). -/
theorem C31_reentrant_leaks :
    (runOps [.newMeasure] {}).default = none ∧
    (runOps [.newMeasure, .enter 0, .enter 0, .exit 0, .exit 0] {}).default = some 0 := ⟨rfl, rfl⟩

end Stheno
