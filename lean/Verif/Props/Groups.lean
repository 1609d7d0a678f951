import Verif.GraphOps
import Verif.Props.Names

/-!
# Properties of measure groups and user-supplied rules: C32, C43, C45
-/

namespace Stheno

/-! ## C32 -/

/-- **C32, consistency.** A measure is among the measures of a process if and only if the process is among
the processes of the measure, and there are no duplicates on either side. -/
theorem C32_consistent (ops : List Op) :
    (∀ m p, Attached (runOps ops {}) m p ↔ m ∈ groups (runOps ops {}) p) ∧
    (∀ p, (groups (runOps ops {}) p).Nodup) ∧
    ∀ (m : MId) s, (runOps ops {}).ms[m]? = some s → s.ps.Nodup ∧ s.pids = s.ps := by
  have hi := Inv.reach ops
  refine ⟨fun m p => ?_, fun p => ?_, fun m s hs => ?_⟩
  · rw [hi.attached]
    unfold groups
    rw [hi.rel.gps]
    constructor
    · rintro ⟨a, ha, hp⟩
      obtain ⟨l, hl, hm⟩ := hi.wf.mem_gps m a ha p hp
      rw [hl]; exact hm
    · intro hm
      cases hl : (specOps ops {}).gps[p]? with
      | none => rw [hl] at hm; simp at hm
      | some l => rw [hl] at hm; exact hi.wf.gps_mem p l hl m hm
  · unfold groups
    rw [hi.rel.gps]
    cases hl : (specOps ops {}).gps[p]? with
    | none => simp
    | some l => exact hi.wf.gps_nodup p l hl
  · obtain ⟨a, ha, hr⟩ := hi.get hs
    rw [hr.ps, hr.pids]
    exact ⟨(hi.wf.ms m a ha).nodup, rfl⟩

example : Attached (runOps demo {}) 1 2 ↔ 1 ∈ groups (runOps demo {}) 2 := (C32_consistent demo).1 1 2

theorem Inv.aPrimary {w : World} {L : AWorld} (hi : Inv w L) {p : PId} {m : MId}
    (h : (groups w p).head? = some m) : ∃ l, L.gps[p]? = some (m :: l) := by
  unfold groups at h
  rw [hi.rel.gps] at h
  cases hl : L.gps[p]? with
  | none => rw [hl] at h; cases h
  | some l =>
    rw [hl] at h
    cases l with
    | nil => cases h
    | cons m' l =>
      simp only [Option.getD_some, List.head?_cons, Option.some.injEq] at h
      rw [h]; exact ⟨l, rfl⟩

theorem Inv.primary_new {w : World} {L : AWorld} (hi : Inv w L) {p : PId} {m : MId}
    (h : (groups w p).head? = some m) : Stheno.aPrimary p L.new = .ok m L.new := by
  obtain ⟨l, hl⟩ := hi.aPrimary h
  rw [aPrimary_eq, new_gps hl]

theorem Inv.groups_new {w w' : World} {L : AWorld} (hi : Inv w L) (hi' : Inv w' L.new) (r : PId) :
    groups w' r = groups w r := by
  unfold groups
  rw [hi.rel.gps, hi'.rel.gps]
  show (L.gps ++ [[]])[r]?.getD [] = _
  rw [List.getElem?_append]
  by_cases h : r < L.gps.length
  · rw [if_pos h]
  · rw [if_neg h, List.getElem?_eq_none (Nat.le_of_not_lt h), List.getElem?_singleton]
    split <;> rfl

/-- What an operation that raises an `AssertionError` and does nothing else does. -/
structure RefusedCleanly (o : Op) (w : World) : Prop where
  raises : o.raises w = some .assertion
  measures : MeasuresUntouched w (o.after w)
  groups : ∀ r, groups (o.after w) r = groups w r
  default : (o.after w).default = w.default

theorem refused_of {w : World} {L : AWorld} (hi : Inv w L) {o : Op} {α : Type} {c : AM α}
    (hs : o.spec = do let _ ← c) (hc : c L = .error .assertion L.new) : RefusedCleanly o w := by
  have he : o.spec L = .error .assertion L.new := by rw [hs]; exact bind_of_error hc
  have hi' := (hi.after o).1
  unfold Op.specAfter at hi'
  rw [he] at hi'
  exact ⟨by rw [hi.raises, he], untouched_of hi hi' (fun k _ => rfl), fun r => hi.groups_new hi' r,
    by rw [hi'.rel.default, hi.rel.default]; rfl⟩

theorem newGP_bind {α : Type} {f : PId → AM α} {L : AWorld} :
    (aNewGP >>= f) L = f L.gps.length L.new := rfl

theorem intersection_error {L : AWorld} {p : PId} {qs : List PId}
    (h : aAssertSame p qs L = .error .assertion L) : aIntersection p qs L = .error .assertion L := by
  unfold aIntersection
  exact bind_of_error h

/-- **C32, different primary measures.** Adding, multiplying or crossing processes whose primary measures
differ raises an `AssertionError`; no measure, name, measure group or default changes. -/
theorem C32_mismatch (ops : List Op) (p q : PId) (mp mq : MId) (ord : List MId)
    (hp : (groups (runOps ops {}) p).head? = some mp) (hq : (groups (runOps ops {}) q).head? = some mq)
    (hne : mp ≠ mq) :
    RefusedCleanly (.add p q ord) (runOps ops {}) ∧ RefusedCleanly (.mul p q ord) (runOps ops {}) := by
  have hi := Inv.reach ops
  have e : aAssertSame p [q] (specOps ops {}).new = .error .assertion (specOps ops {}).new :=
    aAssertSame_error (hi.primary_new hp)
      (fun r hr => ⟨mq, by rw [List.mem_singleton.1 hr]; exact hi.primary_new hq⟩)
      ⟨q, List.mem_singleton.2 rfl, fun h => by
        rw [hi.primary_new hq] at h
        injection h with h
        exact hne h.symm⟩
  exact ⟨refused_of hi rfl (newGP_bind.trans (bind_of_error (intersection_error e))),
    refused_of hi rfl (newGP_bind.trans (bind_of_error (intersection_error e)))⟩

/-- **C32, different primary measures, cross.** -/
theorem C32_mismatch_cross (ops : List Op) (p : PId) (qs : List PId) (mp : MId) (ord : List MId)
    (hp : (groups (runOps ops {}) p).head? = some mp) (hqs : ∀ q ∈ qs, groups (runOps ops {}) q ≠ [])
    (hd : ∃ q ∈ qs, (groups (runOps ops {}) q).head? ≠ some mp) :
    RefusedCleanly (.cross (p :: qs) ord) (runOps ops {}) := by
  have hi := Inv.reach ops
  have hprim : ∀ q ∈ qs, ∃ mq, (groups (runOps ops {}) q).head? = some mq := by
    intro q hq
    cases h : groups (runOps ops {}) q with
    | nil => exact absurd h (hqs q hq)
    | cons m l => exact ⟨m, rfl⟩
  have e : aAssertSame p qs (specOps ops {}).new = .error .assertion (specOps ops {}).new := by
    refine aAssertSame_error (hi.primary_new hp) (fun q hq => ?_) ?_
    · obtain ⟨mq, h⟩ := hprim q hq
      exact ⟨mq, hi.primary_new h⟩
    · obtain ⟨q, hq, hne⟩ := hd
      obtain ⟨mq, h⟩ := hprim q hq
      refine ⟨q, hq, fun h' => ?_⟩
      rw [hi.primary_new h] at h'
      injection h' with h'
      rw [h, h'] at hne
      exact hne rfl
  exact refused_of hi rfl (newGP_bind.trans (bind_of_error (intersection_error e)))

/-- Processes 0 and 3 of `demo` live in different primary measures although both are in measure 1. -/
example : RefusedCleanly (.add 0 3 [1]) (runOps demo {}) :=
  (C32_mismatch demo 0 3 0 1 [1] rfl rfl (by decide)).1

example : RefusedCleanly (.cross [0, 1, 3] [1]) (runOps demo {}) :=
  C32_mismatch_cross demo 0 [1, 3] 0 [1] rfl (by
    intro q hq
    simp only [List.mem_cons, List.not_mem_nil, or_false] at hq
    rcases hq with rfl | rfl
    · exact List.cons_ne_nil 0 [1]
    · exact List.cons_ne_nil 1 [])
    ⟨3, by simp, fun h => absurd (show some 1 = some 0 from h) (by decide)⟩

theorem mulPush_gps {L : AWorld} {m : MId} {res p q r : PId} (hr : r < L.gps.length) :
    (L.mulPush m res p q).gps[r]? = if res = r then L.gps[r]?.map (· ++ [m]) else L.gps[r]? := by
  have hnew : ∀ {L' : AWorld}, r < L'.gps.length → L'.new.gps[r]? = L'.gps[r]? := by
    intro L' h
    show (L'.gps ++ [[]])[r]? = _
    rw [List.getElem?_append_left h]
  simp only [AWorld.mulPush]
  have e : ∀ k, L.gps.length + k ≠ r := fun k => by omega
  have e0 : L.gps.length ≠ r := by omega
  have hl : ∀ {L' : AWorld}, r < L'.gps.length → r < L'.new.gps.length := fun h => by
    simp [AWorld.new]; omega
  rw [push_gps, push_gps, if_neg (e 3), hnew, push_gps, if_neg e0, push_gps, if_neg (e 2), hnew, push_gps,
    if_neg (e 1), hnew (hl hr), hnew hr]
  · rw [push_gps_length]; exact hl (hl hr)
  · rw [push_gps_length, push_gps_length]; exact hl (by rw [push_gps_length]; exact hl (hl hr))

theorem mulPush_length {L : AWorld} {m : MId} {res p q : PId} :
    L.gps.length ≤ (L.mulPush m res p q).gps.length := by
  simp only [AWorld.mulPush, push_gps_length, AWorld.new, List.length_append]
  omega

theorem foldl_mulPush_gps {res p q r : PId} (ms : List MId) : ∀ {L : AWorld}, r < L.gps.length →
    res < L.gps.length → (ms.foldl (fun L' m => L'.mulPush m res p q) L).gps[r]? =
      if res = r then L.gps[r]?.map (· ++ ms) else L.gps[r]? := by
  induction ms with
  | nil => intro L _ _; simp
  | cons m ms ih =>
    intro L hr hres
    show (ms.foldl _ (L.mulPush m res p q)).gps[r]? = _
    rw [ih (Nat.lt_of_lt_of_le hr mulPush_length) (Nat.lt_of_lt_of_le hres mulPush_length), mulPush_gps hr]
    by_cases h : res = r
    · simp only [if_pos h, Option.map_map]
      congr 1
      funext l; simp
    · simp only [if_neg h]

theorem mem_common_groups {w : World} {L : AWorld} (hi : Inv w L) {p : PId} {qs : List PId} {m : MId} :
    m ∈ common L.new p qs ↔ m ∈ groups w p ∧ ∀ q ∈ qs, m ∈ groups w q := by
  have hnew : ∀ r, L.new.gps[r]?.getD [] = groups w r := by
    intro r
    unfold groups
    rw [hi.rel.gps]
    show (L.gps ++ [[]])[r]?.getD [] = _
    rw [List.getElem?_append]
    by_cases h : r < L.gps.length
    · rw [if_pos h]
    · rw [if_neg h, List.getElem?_eq_none (Nat.le_of_not_lt h), List.getElem?_singleton]
      split <;> rfl
  simp only [common, List.mem_filter, hnew, List.all_eq_true, List.contains_eq_mem, decide_eq_true_eq]

/-- **C32, the measures of a combination.** If `p + q`, `p * q` or a cross returns, the result (the process
with the next number) is attached to exactly the measures that contain all operands. This holds for every
order in which Python may iterate over the set of common measures. -/
theorem C32_result (ops : List Op) (p : PId) (qs : List PId) (o : Op)
    (ho : (∃ q ord, qs = [q] ∧ (o = .add p q ord ∨ o = .mul p q ord)) ∨ ∃ ord, o = .cross (p :: qs) ord)
    (hr : o.raises (runOps ops {}) = none) (m : MId) :
    m ∈ groups (o.after (runOps ops {})) (runOps ops {}).gps.length ↔
      m ∈ groups (runOps ops {}) p ∧ ∀ q ∈ qs, m ∈ groups (runOps ops {}) q := by
  have hi := Inv.reach ops
  have hok := hi.ok hr
  have hi' := (hi.after o).1
  rw [← mem_common_groups hi]
  have hnewlen : (specOps ops {}).new.gps[(specOps ops {}).gps.length]? = some [] := by simp [AWorld.new]
  rcases ho with ⟨q, ord, rfl, rfl | rfl⟩ | ⟨ord, rfl⟩
  · obtain ⟨v, hv⟩ := forget_ok hok
    obtain ⟨_, _, hperm, e⟩ := aAdd_ok hv
    unfold groups
    rw [hi'.rel.gps, hi.rel.gps, e, pushAll_gps, if_pos rfl, hnewlen]
    exact hperm.mem_iff
  · obtain ⟨v, hv⟩ := forget_ok hok
    obtain ⟨_, _, hperm, e⟩ := aGpMul_ok hv
    unfold groups
    rw [hi'.rel.gps, hi.rel.gps, e, foldl_mulPush_gps _ (by simp [AWorld.new]) (by simp [AWorld.new]),
      if_pos rfl, hnewlen]
    exact hperm.mem_iff
  · obtain ⟨v, hv⟩ := forget_ok hok
    obtain ⟨_, p', qs', e', _, hperm, e⟩ := aCross_ok hv
    cases e'
    unfold groups
    rw [hi'.rel.gps, hi.rel.gps, e, pushAll_gps, if_pos rfl, hnewlen]
    exact hperm.mem_iff

/-- Operations on a single process, with the process. -/
def Op.unaryOn : Op → Option PId
  | .addFn p _ | .scale p _ | .fmul p _ | .pre p _ | .diff p _ => some p
  | _ => none

theorem unary_spec {o : Op} {p : PId} (h : o.unaryOn = some p) : ∃ d : ProcDef, d.refs = [p] ∧
    o.spec = (do let _ ← aUnary d p) := by
  cases o <;> cases h
  · exact ⟨.addFn p _, rfl, rfl⟩
  · exact ⟨.scale p _, rfl, rfl⟩
  · exact ⟨.fmul p _, rfl, rfl⟩
  · exact ⟨.pre p _, rfl, rfl⟩
  · exact ⟨.diff p _, rfl, rfl⟩

/-- **C32, the measures of a derived process.** `p + f`, `c * p`, `f * p`, `p.shift(s)`, ..., `p.diff(d)`
are attached to exactly the measures of `p`, in the same order. -/
theorem C32_result_unary (ops : List Op) (o : Op) (p : PId) (ho : o.unaryOn = some p)
    (hr : o.raises (runOps ops {}) = none) :
    groups (o.after (runOps ops {})) (runOps ops {}).gps.length = groups (runOps ops {}) p := by
  have hi := Inv.reach ops
  have hok := hi.ok hr
  have hi' := (hi.after o).1
  obtain ⟨d, _, hd⟩ := unary_spec ho
  rw [hd] at hok
  obtain ⟨v, hv⟩ := forget_ok hok
  obtain ⟨_, ms, hms, e⟩ := aUnary_ok hv
  have : groups (runOps ops {}) p = ms := by
    unfold groups
    rw [hi.rel.gps]
    change ((specOps ops {}).gps ++ [[]])[p]? = _ at hms
    rw [List.getElem?_append] at hms
    by_cases h : p < (specOps ops {}).gps.length
    · rw [if_pos h] at hms; rw [hms]; rfl
    · rw [if_neg h] at hms
      rw [List.getElem?_eq_none (Nat.le_of_not_lt h)]
      rw [List.getElem?_singleton] at hms
      split at hms
      · cases hms; rfl
      · cases hms
  rw [this]
  unfold groups
  rw [hi'.rel.gps, hi.rel.gps, e, pushAll_gps, if_pos rfl]
  simp [AWorld.new]

example : groups ((Op.pre 2 (.shift (.scalar 1))).after (runOps demo {})) 5 = [0, 1] :=
  C32_result_unary demo _ 2 rfl rfl

theorem good_of_proper (ops : List Op) (h : Proper ops) : Good (specOps ops {}) :=
  ⟨(Inv.reach ops).wf, sane_of_proper ops h⟩

/-- **C32, combining succeeds.** In a proper program, processes with the same primary measure can be added,
multiplied and crossed, and processes can be derived, without an exception. `ord` is any order of the
common measures. -/
theorem C32_succeeds (ops : List Op) (h : Proper ops) (p : PId) (qs : List PId) (m : MId) (ord : List MId)
    (hp : (groups (runOps ops {}) p).head? = some m)
    (hqs : ∀ q ∈ qs, (groups (runOps ops {}) q).head? = some m)
    (hord : ord.Nodup)
    (hmem : ∀ m, m ∈ ord ↔ m ∈ groups (runOps ops {}) p ∧ ∀ q ∈ qs, m ∈ groups (runOps ops {}) q) :
    (Op.cross (p :: qs) ord).raises (runOps ops {}) = none ∧
    ∀ q, qs = [q] → (Op.add p q ord).raises (runOps ops {}) = none ∧
      (Op.mul p q ord).raises (runOps ops {}) = none := by
  have hi := Inv.reach ops
  have hg := good_of_proper ops h
  have hperm : ord.Perm (common (specOps ops {}).new p qs) :=
    (List.perm_ext_iff_of_nodup hord (common_nodup hg.new.wf p qs)).2 fun m => by
      rw [hmem, mem_common_groups hi]
  have hs : SamePrimary (specOps ops {}) p qs := by
    intro q hq
    obtain ⟨l, hl⟩ := hi.aPrimary hp
    obtain ⟨l', hl'⟩ := hi.aPrimary (hqs q hq)
    exact ⟨m, l, l', hl, hl'⟩
  have hlt : ∀ q, (groups (runOps ops {}) q).head? = some m → q < (specOps ops {}).gps.length := by
    intro q hq
    obtain ⟨l, hl⟩ := hi.aPrimary hq
    exact (List.getElem?_eq_some_iff.1 hl).1
  refine ⟨?_, fun q hq => ?_⟩
  · rw [hi.raises]
    simp only [Op.spec]
    rw [bind_of_ok (hg.cross hs (hlt p hp) (fun q hq => hlt q (hqs q hq)) hperm)]
    rfl
  · subst hq
    constructor
    · rw [hi.raises]
      simp only [Op.spec]
      rw [bind_of_ok (hg.add hs hperm)]
      rfl
    · rw [hi.raises]
      simp only [Op.spec]
      rw [bind_of_ok (hg.gpMul hs hperm)]
      rfl

/-- **C32, deriving succeeds.** -/
theorem C32_succeeds_unary (ops : List Op) (h : Proper ops) (o : Op) (p : PId) (ho : o.unaryOn = some p)
    (hp : groups (runOps ops {}) p ≠ []) : o.raises (runOps ops {}) = none := by
  have hi := Inv.reach ops
  have hg := good_of_proper ops h
  obtain ⟨d, hd, hs⟩ := unary_spec ho
  have : ∃ ms, (specOps ops {}).gps[p]? = some ms := by
    unfold groups at hp
    rw [hi.rel.gps] at hp
    cases hl : (specOps ops {}).gps[p]? with
    | none => rw [hl] at hp; exact absurd rfl hp
    | some l => exact ⟨l, rfl⟩
  obtain ⟨ms, hms⟩ := this
  rw [hi.raises, hs, bind_of_ok (hg.unary hms hd)]
  rfl

/-- Processes 2 and 4 of `demo` have two measures in common; their product, in the order `[1, 0]`. -/
example : (Op.mul 2 4 [1, 0]).raises (runOps demo {}) = none ∧
    ∀ m, m ∈ groups ((Op.mul 2 4 [1, 0]).after (runOps demo {})) 5 ↔
      m ∈ groups (runOps demo {}) 2 ∧ ∀ q ∈ [4], m ∈ groups (runOps demo {}) q := by
  have h : (Op.mul 2 4 [1, 0]).raises (runOps demo {}) = none :=
    ((C32_succeeds demo demo_proper 2 [4] 0 [1, 0] rfl (by
      intro q hq; rw [List.mem_singleton.1 hq]; rfl) (by decide) (by
      intro m
      have e2 : groups (runOps demo {}) 2 = [0, 1] := rfl
      have e4 : groups (runOps demo {}) 4 = [0, 1] := rfl
      simp only [List.mem_singleton, forall_eq, e2, e4]
      simp only [List.mem_cons, List.not_mem_nil, or_false]
      omega)).2 4 rfl).2
  exact ⟨h, fun m => C32_result demo 2 [4] _ (.inl ⟨4, [1, 0], rfl, .inr rfl⟩) h m⟩

theorem kernel_same_ms {L L' : AWorld} (h : ∀ m : MId, L'.ms[m]? = L.ms[m]?) : L'.ms = L.ms :=
  List.ext_getElem? h

/-- **C32, iteration order.** Means, kernels and names after `p + q` or a cross do not depend on the order
in which Python iterates over the set of common measures. -/
theorem C32_order_irrelevant (ops : List Op) (o1 o2 : Op)
    (ho : (∃ p q ord1 ord2, o1 = .add p q ord1 ∧ o2 = .add p q ord2) ∨
      ∃ ps ord1 ord2, o1 = .cross ps ord1 ∧ o2 = .cross ps ord2)
    (h1 : o1.raises (runOps ops {}) = none) (h2 : o2.raises (runOps ops {}) = none) (m : MId) (p q : PId) :
    let w1 := o1.after (runOps ops {})
    let w2 := o2.after (runOps ops {})
    kernelAt w1 m p q = kernelAt w2 m p q ∧ meanAt w1 m p = meanAt w2 m p ∧
      (Attached w1 m p ↔ Attached w2 m p) := by
  intro w1 w2
  have hi := Inv.reach ops
  have hi1 := (hi.after o1).1
  have hi2 := (hi.after o2).1
  have hms : (o1.specAfter (specOps ops {})).ms = (o2.specAfter (specOps ops {})).ms := by
    have hok1 := hi.ok h1
    have hok2 := hi.ok h2
    have key : ∀ {ord1 ord2 : List MId} {p : PId} {qs : List PId} {d : ProcDef},
        ord1.Perm (common (specOps ops {}).new p qs) → ord2.Perm (common (specOps ops {}).new p qs) →
        ((specOps ops {}).new.pushAll ord1 (specOps ops {}).gps.length d).ms =
          ((specOps ops {}).new.pushAll ord2 (specOps ops {}).gps.length d).ms := by
      intro ord1 ord2 p qs d hp1 hp2
      have hwf : Wf (specOps ops {}).new := hi.wf.new
      have hn := common_nodup hwf p qs
      apply List.ext_getElem?
      intro m
      rw [pushAll_ms (hp1.nodup_iff.2 hn), pushAll_ms (hp2.nodup_iff.2 hn)]
      simp only [hp1.mem_iff, hp2.mem_iff]
    rcases ho with ⟨p, q, ord1, ord2, rfl, rfl⟩ | ⟨ps, ord1, ord2, rfl, rfl⟩
    · obtain ⟨v1, hv1⟩ := forget_ok hok1
      obtain ⟨v2, hv2⟩ := forget_ok hok2
      obtain ⟨_, _, hp1, e1⟩ := aAdd_ok hv1
      obtain ⟨_, _, hp2, e2⟩ := aAdd_ok hv2
      rw [e1, e2]
      exact key hp1 hp2
    · obtain ⟨v1, hv1⟩ := forget_ok hok1
      obtain ⟨v2, hv2⟩ := forget_ok hok2
      obtain ⟨_, p, qs, rfl, _, hp1, e1⟩ := aCross_ok hv1
      obtain ⟨_, p', qs', e', _, hp2, e2⟩ := aCross_ok hv2
      cases e'
      rw [e1, e2]
      exact key hp1 hp2
  refine ⟨?_, ?_, ?_⟩
  · rw [hi1.kernelAt, hi2.kernelAt, kernel_congr hms]
  · rw [hi1.meanAt, hi2.meanAt, mean_congr hms]
  · rw [hi1.attached, hi2.attached, hms]

example : kernelAt ((Op.add 2 4 [0, 1]).after (runOps demo {})) 1 5 5 =
    kernelAt ((Op.add 2 4 [1, 0]).after (runOps demo {})) 1 5 5 :=
  (C32_order_irrelevant demo _ _ (.inl ⟨2, 4, [0, 1], [1, 0], rfl, rfl⟩) rfl rfl 1 5 5).1

/-- **C32, what does depend on the iteration order.** The primary measure of `p + q`, hence `(p + q).kernel`,
is the first common measure in the iteration order of a Python set. Both orders are possible. -/
theorem C32_primary_depends_on_order :
    (Op.add 0 2 [0, 1]).raises (runOps demo {}) = none ∧
    (Op.add 0 2 [1, 0]).raises (runOps demo {}) = none ∧
    (groups ((Op.add 0 2 [0, 1]).after (runOps demo {})) 5).head? = some 0 ∧
    (groups ((Op.add 0 2 [1, 0]).after (runOps demo {})) 5).head? = some 1 := ⟨rfl, rfl, rfl, rfl⟩

/-! ## C43 -/

theorem aAddGP_ok {m : MId} {mean : MExpr} {kernel : KExpr} {left : LRule} {L L' : AWorld} {v : PId}
    (h : aAddGP m mean kernel left L = .ok v L') : v = L.gps.length ∧
      (∃ a, L.ms[m]? = some a ∧ ∀ q ∈ left.refs, q ∈ a.ps) ∧
      L' = L.new.push m L.gps.length (.custom mean kernel left) := by
  obtain ⟨a, L1, h1, h2⟩ := bind_ok h
  unfold aGetMeas at h1
  cases ha : L.ms[m]? with
  | none => rw [ha] at h1; cases h1
  | some a' =>
    rw [ha] at h1
    cases h1
    by_cases hc : left.refs.all (a.ps.contains ·)
    · rw [if_pos hc, newGP_bind] at h2
      obtain ⟨_, L2, h3, h4⟩ := bind_ok h2
      obtain ⟨rfl, rfl⟩ := pure_ok h4
      exact ⟨rfl, ⟨a, rfl, by simpa using hc⟩, (aDefine_ok h3).1⟩
    · rw [if_neg hc] at h2; cases h2

/-- **C43, partial.** A process added with `measure.add_gp(mean, kernel, left_rule, right_rule)` has the given
mean and kernel; its covariance with any earlier process `j` is the left rule at `j`, evaluated in the
kernels of the measure; and the covariance of `j` with it is the reversal of that. Missing: the last part is
only right if no right rule is given, see `C43_right_rule_ignored`. -/
theorem C43_rules_partial (ops : List Op) (m : MId) (mean : MExpr) (kernel : KExpr) (left : LRule)
    (right : Option RRule)
    (hr : (Op.addGP m mean kernel left right).raises (runOps ops {}) = none) :
    let w := runOps ops {}
    let w' := (Op.addGP m mean kernel left right).after w
    let p := w.gps.length
    Attached w' m p ∧ meanAt w' m p = some mean ∧ kernelAt w' m p p = some kernel ∧
      ∀ j, Attached w m j → kernelAt w' m p j = runL (kernelAt w m) j left ∧
        kernelAt w' m j p = (runL (kernelAt w m) j left).map krev := by
  intro w w' p
  have hi : Inv w (specOps ops {}) := Inv.reach ops
  have hi' := (hi.after (.addGP m mean kernel left right)).1
  obtain ⟨v, hv⟩ := forget_ok (hi.ok hr)
  obtain ⟨_, ⟨a, ha, hrefs⟩, e⟩ := aAddGP_ok hv
  rw [e] at hi'
  have hp : p = (specOps ops {}).gps.length := by show w.gps.length = _; rw [hi.rel.gps]
  have ha' : (specOps ops {}).new.ms[m]? = some a := ha
  have hfresh := fresh_new_self (specOps ops {}) m
  have hwf := hi.wf.new
  have hnot : (specOps ops {}).gps.length ∉ a.ps := Fresh.not_mem hwf hfresh ha
  have st := hwf.ms.stable
  have hk : (specOps ops {}).new.kernel m = kernelAt w m := by
    funext i j; rw [hi.kernelAt]; rfl
  rw [hp]
  refine ⟨hi'.attached.2 ⟨{ a with defs := (_, _) :: a.defs }, by rw [push_ms, if_pos rfl, ha']; rfl, ?_⟩,
    ?_, ?_, fun j hj => ?_⟩
  · simp only [AMeas.ps, knownOf_cons, List.mem_append, List.mem_singleton]; exact .inr trivial
  · rw [hi'.meanAt, push_mean_at st ha' hnot, if_pos rfl]; rfl
  · rw [hi'.kernelAt, push_kernel_at st ha' hnot, if_pos rfl, if_pos rfl]; rfl
  · obtain ⟨b, hb, hjb⟩ := hi.attached.1 hj
    rw [ha] at hb; cases hb
    have hne : j ≠ (specOps ops {}).gps.length := fun e => hnot (e ▸ hjb)
    constructor
    · rw [hi'.kernelAt, push_kernel_at st ha' hnot, if_pos rfl, if_neg hne, if_pos hjb, hk]; rfl
    · rw [hi'.kernelAt, push_kernel_at st ha' hnot, if_neg hne, if_pos rfl, if_pos hjb, hk]
      show (runL (kernelAt w m) j left >>= fun k => pure (krev k)) = _
      cases runL (kernelAt w m) j left <;> rfl

/-- A process that is twice process 2 of `demo` plus an independent part. -/
example : kernelAt ((Op.addGP 0 .zero (.prim fun _ _ => 9) (.scale 2 (.look 2)) none).after
    (runOps demo {})) 0 5 1 = (kernelAt (runOps demo {}) 0 2 1).map (kscale 2) := by
  have h := ((C43_rules_partial demo 0 .zero (.prim fun _ _ => 9) (.scale 2 (.look 2)) none rfl).2.2.2 1
    (attached_iff.2 rfl)).1
  refine h.trans ?_
  show (kernelAt (runOps demo {}) 0 2 1 >>= fun k => pure (kscale 2 k)) = _
  cases kernelAt (runOps demo {}) 0 2 1 <;> rfl

/-- **C43, negation.** A right rule that is given is ignored (`stheno/model/measure.py:136`): here the right
rule is the kernel with process 0, but the covariance of 0 with the new process is the reversed left rule,
zero, although the kernel of process 0 is not zero. -/
theorem C43_right_rule_ignored :
    let w := runOps [.gp .zero (.prim fun _ _ => 2) none none] {}
    let o := Op.addGP 0 .zero (.prim fun _ _ => 2) .zero (some (.look 0))
    o.raises w = none ∧ kernelAt (o.after w) 0 0 1 = some .zero ∧
      runR (kernelAt w 0) 0 (.look 0) = some (.prim fun _ _ => 2) := ⟨rfl, rfl, rfl⟩

/-! ## C45 -/

/-- The process ids that occur in the tables of a measure: keys of stored means and kernels, and the indices
and domains of rules. -/
def MState.ids (s : MState) : List PId :=
  s.means.store.map (·.1) ++ s.means.rules.flatMap (·.1) ++
  s.kernels.store.flatMap (fun e => [e.1.1, e.1.2]) ++ s.kernels.rules.flatMap (·.1) ++
  s.kernels.leftRules.flatMap (fun r => r.1 :: r.2.1) ++
  s.kernels.rightRules.flatMap (fun r => r.1 :: r.2.1)

/-- The process ids that the closures of left and right rules hold on to. -/
def MState.ruleRefs (s : MState) : List PId :=
  s.kernels.leftRules.flatMap (fun r => r.2.2.refs) ++
  s.kernels.rightRules.flatMap (fun r => match r.2.2 with | .rev p => [p] | .look p => [p] | .zero => [])

theorem lookup_isSome_of_mem {α β : Type} [BEq α] [LawfulBEq α] {l : List (α × β)} {e : α × β} (h : e ∈ l) :
    ∃ v, l.lookup e.1 = some v := by
  induction l with
  | nil => simp at h
  | cons b l ih =>
    obtain ⟨x, y⟩ := b
    simp only [List.lookup]
    split
    · exact ⟨y, rfl⟩
    · next hne =>
      rcases List.mem_cons.1 h with rfl | h
      · simp at hne
      · exact ih h

theorem leftRulesOf_mem {m : MId} {bp : List PId} : ∀ {es : List (PId × ProcDef)}, Scoped bp es →
    ∀ r ∈ leftRulesOf m bp es, (r.1 ∈ knownOf bp es ∧ ∀ q ∈ r.2.1, q ∈ knownOf bp es) ∧
      ∀ q ∈ r.2.2.refs, q ∈ knownOf bp es
  | [], _, r, hr => by simp [leftRulesOf] at hr
  | (p, d) :: es, hs, r, hr => by
    simp only [leftRulesOf, List.mem_append, List.mem_singleton] at hr
    rcases hr with hr | rfl
    · obtain ⟨⟨h1, h2⟩, h3⟩ := leftRulesOf_mem hs.2 r hr
      simp only [knownOf_cons, List.mem_append]
      exact ⟨⟨.inl h1, fun q hq => .inl (h2 q hq)⟩, fun q hq => .inl (h3 q hq)⟩
    · simp only [knownOf_cons, List.mem_append, List.mem_singleton, or_true, true_and]
      refine ⟨fun q hq => .inl hq, fun q hq => ?_⟩
      exact .inl (hs.1 q (refs_lrule hq))

theorem rightRulesOf_mem {bp : List PId} : ∀ {es : List (PId × ProcDef)}, Scoped bp es →
    ∀ r ∈ rightRulesOf bp es, (r.1 ∈ knownOf bp es ∧ ∀ q ∈ r.2.1, q ∈ knownOf bp es) ∧
      ∀ q ∈ (match r.2.2 with | .rev p => [p] | .look p => [p] | .zero => []), q ∈ knownOf bp es
  | [], _, r, hr => by simp [rightRulesOf] at hr
  | (p, d) :: es, hs, r, hr => by
    simp only [rightRulesOf, List.mem_append, List.mem_singleton] at hr
    rcases hr with hr | rfl
    · obtain ⟨⟨h1, h2⟩, h3⟩ := rightRulesOf_mem hs.2 r hr
      simp only [knownOf_cons, List.mem_append]
      exact ⟨⟨.inl h1, fun q hq => .inl (h2 q hq)⟩, fun q hq => .inl (h3 q hq)⟩
    · simp only [knownOf_cons, List.mem_append, List.mem_singleton, or_true, true_and]
      refine ⟨fun q hq => .inl hq, fun q hq => ?_⟩
      have href := hs.1
      cases d with
      | copy p' =>
        left
        apply href
        simpa [ProcDef.rrule, ProcDef.refs] using hq
      | indep | rem => simp [ProcDef.rrule] at hq
      | _ => right; simpa [ProcDef.rrule] using hq

/-- **C45.** Every process id that is a key or in the domain of a table of a measure is the id of a process
in `measure.ps`, which keeps the object alive; so is everything the rules refer to. Ids in the table of names
belong to processes that the other table of names keeps alive. -/
theorem C45_alive (ops : List Op) (m : MId) (s : MState) (hs : (runOps ops {}).ms[m]? = some s) :
    (∀ i ∈ s.ids, i ∈ s.ps) ∧ (∀ i ∈ s.ruleRefs, i ∈ s.ps) ∧ (∀ e ∈ s.namesByGp, (e.2, e.1) ∈ s.gpsByName) ∧
    ∀ p ∈ s.ps, p < (runOps ops {}).gps.length := by
  have hi := Inv.reach ops
  obtain ⟨a, ha, hr⟩ := hi.get hs
  have wfm := hi.wf.ms m a ha
  have st := hi.wf.ms.stable
  have hbase : ∀ i ∈ a.basePs, i ∈ a.ps := fun i hi => mem_knownOf.2 (.inl hi)
  have hrules : ∀ i ∈ (a.base.toList.map fun u => (a.basePs, u)).flatMap (fun r : List Nat × URule => r.1),
      i ∈ a.ps := by
    intro i hi
    simp only [List.mem_flatMap, List.mem_map] at hi
    obtain ⟨r, ⟨u, _, rfl⟩, hi⟩ := hi
    exact hbase i hi
  refine ⟨fun i hi' => ?_, fun i hi' => ?_, fun e he => ?_, fun p hp => ?_⟩
  · rw [hr.ps]
    simp only [MState.ids, List.mem_append] at hi'
    rw [hr.krules, hr.mrules, hr.left, hr.right] at hi'
    rcases hi' with ((((h | h) | h) | h) | h) | h
    · obtain ⟨e, he, rfl⟩ := List.mem_map.1 h
      obtain ⟨v, hv⟩ := lookup_isSome_of_mem he
      have := hr.mstore _ _ hv
      rw [mean_eq st.base_lt ha] at this
      exact lookMDefs_known this
    · exact hrules i h
    · simp only [List.mem_flatMap] at h
      obtain ⟨e, he, h⟩ := h
      obtain ⟨v, hv⟩ := lookup_isSome_of_mem he
      have := hr.kstore e.1.1 e.1.2 v hv
      rw [kernel_eq st.base_lt ha] at this
      obtain ⟨h1, h2⟩ := lookKDefs_known this
      simp only [List.mem_cons, List.not_mem_nil, or_false] at h
      rcases h with rfl | rfl
      · exact h1
      · exact h2
    · exact hrules i h
    · simp only [List.mem_flatMap, List.mem_cons] at h
      obtain ⟨r, hr', h⟩ := h
      obtain ⟨⟨h1, h2⟩, _⟩ := leftRulesOf_mem wfm.inScope r hr'
      rcases h with rfl | h
      · exact h1
      · exact h2 i h
    · simp only [List.mem_flatMap, List.mem_cons] at h
      obtain ⟨r, hr', h⟩ := h
      obtain ⟨⟨h1, h2⟩, _⟩ := rightRulesOf_mem wfm.inScope r hr'
      rcases h with rfl | h
      · exact h1
      · exact h2 i h
  · rw [hr.ps]
    simp only [MState.ruleRefs, List.mem_append, List.mem_flatMap] at hi'
    rw [hr.left, hr.right] at hi'
    rcases hi' with ⟨r, hr', h⟩ | ⟨r, hr', h⟩
    · exact (leftRulesOf_mem wfm.inScope r hr').2 i h
    · exact (rightRulesOf_mem wfm.inScope r hr').2 i h
  · have hn := hi.wf.names m a ha
    rw [hr.namesByGp, hn.1] at he
    rw [hr.gpsByName]
    obtain ⟨x, hx, rfl⟩ := List.mem_map.1 he
    exact hx
  · rw [hr.ps] at hp
    obtain ⟨l, hl, _⟩ := hi.wf.mem_gps m a ha p hp
    rw [hi.rel.gps]
    exact (List.getElem?_eq_some_iff.1 hl).1

/-- In `demo`, the tables of the posterior mention three processes of the prior. -/
example : ∃ s, (runOps demo {}).ms[1]? = some s ∧ 0 ∈ s.ids ∧ 3 ∈ s.ids :=
  ⟨_, rfl, List.elem_iff.1 rfl, List.elem_iff.1 rfl⟩

end Stheno
