import Verif.Props.Groups
import Verif.Props.Names

/-!
# C67: operations raise exactly when they cannot be done
-/

namespace Stheno

/-- Processes of which not all have the first measure of `p`: the first process for which this fails decides about the exception. -/
def Clash (w : World) (p : PId) (qs : List PId) (e : Err) : Prop :=
  ∃ before q after, qs = before ++ q :: after ∧ (∀ r ∈ before, ∃ m, (groups w p).head? = some m ∧ (groups w r).head? = some m) ∧
    ((e = .runtime ∧ (groups w p = [] ∨ groups w q = [])) ∨ (e = .assertion ∧ ∃ m m', (groups w p).head? = some m ∧ (groups w q).head? = some m' ∧ m ≠ m'))

/-- The name belongs to a process other than `p`. -/
def Taken (w : World) (m : MId) (p : PId) (n : String) : Prop := ∃ q, q ≠ p ∧ gpNamed w m n = some q

/-- When an operation raises which exception. -/
def Op.Fails (w : World) : Op → Err → Prop
  | .gp _ _ om on, e => e = .runtime ∧ ∃ m n, (om = some m ∨ om = none ∧ w.default = some m) ∧ on = some n ∧ n ≠ "" ∧ Taken w m w.gps.length n
  | .add p q _, e | .mul p q _, e => Clash w p [q] e
  | .cross [] _, e => e = .index
  | .cross (p :: qs) _, e => Clash w p qs e
  | .call m p, e | .getM m p, e => e = .runtime ∧ ¬ Attached w m p
  | .getK m p q, e => e = .runtime ∧ ¬ (Attached w m p ∧ Attached w m q)
  | .name m p n, e => e = .runtime ∧ Taken w m p n
  | .gpName p n, e => e = .runtime ∧ ∃ m ∈ groups w p, Taken w m p n
  | _, _ => False

/-- The objects that an operation refers to exist, and `ord` is an order of the measures that the processes have in common. -/
def Op.Refers (w : World) : Op → Prop
  | .newMeasure | .newGP => True
  | .gp _ _ om _ => ∀ m, om = some m → HasMeasure w m
  | .addFn p _ | .scale p _ | .fmul p _ | .pre p _ | .diff p _ | .gpName p _ => p < w.gps.length
  | .add p q ord | .mul p q ord => p < w.gps.length ∧ q < w.gps.length ∧ ord.Nodup ∧ ∀ m, m ∈ ord ↔ m ∈ groups w p ∧ m ∈ groups w q
  | .cross ps ord => (∀ p ∈ ps, p < w.gps.length) ∧ ord.Nodup ∧ ∀ p qs, ps = p :: qs → ∀ m, m ∈ ord ↔ m ∈ groups w p ∧ ∀ q ∈ qs, m ∈ groups w q
  | .addGP m _ _ left _ => HasMeasure w m ∧ ∀ p ∈ left.refs, Attached w m p
  | .call m _ | .condition m _ | .getM m _ | .getK m _ _ | .name m _ _ | .enter m | .exit m => HasMeasure w m

section
variable {w : World} {L : AWorld}

theorem Inv.some_gps (hi : Inv w L) {p : PId} (hp : p < w.gps.length) : L.gps[p]? = some (groups w p) := by
  unfold groups
  rw [← hi.rel.gps, List.getElem?_eq_getElem hp]
  rfl

/-- `assert_same_measure`. -/
theorem assertSame_spec (hi : Inv w L) {p : PId} (hp : p < w.gps.length) : ∀ qs : List PId, (∀ q ∈ qs, q < w.gps.length) →
    (aAssertSame p qs L.new = .ok () L.new ∧ ∀ e, ¬ Clash w p qs e) ∨ ∃ e, aAssertSame p qs L.new = .error e L.new ∧ ∀ e', Clash w p qs e' ↔ e' = e
  | [], _ => .inl ⟨rfl, fun e ⟨before, q, after, h, _⟩ => by simp at h⟩
  | q :: qs, h => by
    have ep := new_gps (hi.some_gps hp)
    have eq := new_gps (hi.some_gps (h q (by simp)))
    have hpp := aPrimary_eq p L.new
    have hqq := aPrimary_eq q L.new
    rw [ep] at hpp
    rw [eq] at hqq
    have first : ∀ {e}, Clash w p (q :: qs) e → (∃ m, (groups w p).head? = some m ∧ (groups w q).head? = some m) ∧ Clash w p qs e ∨
        ((e = .runtime ∧ (groups w p = [] ∨ groups w q = [])) ∨ (e = .assertion ∧ ∃ m m', (groups w p).head? = some m ∧ (groups w q).head? = some m' ∧ m ≠ m')) := by
      rintro e ⟨before, r, after, e1, e2, e3⟩
      cases before with
      | nil =>
        cases e1
        exact .inr e3
      | cons b before =>
        cases e1
        exact .inl ⟨e2 _ (by simp), before, r, after, rfl, fun r hr => e2 r (by simp [hr]), e3⟩
    cases hgp : groups w p with
    | nil =>
      rw [hgp] at hpp
      refine .inr ⟨.runtime, bind_of_error hpp, fun e' => ⟨fun hc => ?_, fun he => ?_⟩⟩
      · rcases first hc with ⟨⟨m, h1, _⟩, _⟩ | h1 | ⟨_, m, _, h1, _⟩
        · rw [hgp] at h1; cases h1
        · exact h1.1
        · rw [hgp] at h1; cases h1
      · exact ⟨[], q, qs, rfl, by simp, .inl ⟨he, .inl hgp⟩⟩
    | cons m l =>
      rw [hgp] at hpp
      cases hgq : groups w q with
      | nil =>
        rw [hgq] at hqq
        refine .inr ⟨.runtime, (bind_of_ok hpp).trans (bind_of_error hqq), fun e' => ⟨fun hc => ?_, fun he => ?_⟩⟩
        · rcases first hc with ⟨⟨m, _, h1⟩, _⟩ | h1 | ⟨_, m, _, _, h1, _⟩
          · rw [hgq] at h1; cases h1
          · exact h1.1
          · rw [hgq] at h1; cases h1
        · exact ⟨[], q, qs, rfl, by simp, .inl ⟨he, .inr hgq⟩⟩
      | cons m' l' =>
        rw [hgq] at hqq
        have hrun : aAssertSame p (q :: qs) L.new = (if m = m' then aAssertSame p qs else throw .assertion) L.new := (bind_of_ok hpp).trans (bind_of_ok hqq)
        by_cases hm : m = m'
        · subst hm
          rw [if_pos rfl] at hrun
          have hfirst : ∀ {e}, Clash w p (q :: qs) e ↔ Clash w p qs e := by
            intro e
            constructor
            · intro hc
              rcases first hc with h1 | ⟨_, h1⟩ | ⟨_, a, a', h1, h2, h3⟩
              · exact h1.2
              · rw [hgp, hgq] at h1; simp at h1
              · rw [hgp] at h1; rw [hgq] at h2
                cases h1; cases h2
                exact absurd rfl h3
            · rintro ⟨before, r, after, rfl, e2, e3⟩
              refine ⟨q :: before, r, after, rfl, fun s hs => ?_, e3⟩
              rcases List.mem_cons.1 hs with rfl | hs
              · exact ⟨m, by rw [hgp]; rfl, by rw [hgq]; rfl⟩
              · exact e2 s hs
          rcases assertSame_spec hi hp qs (fun r hr => h r (by simp [hr])) with ⟨h1, h2⟩ | ⟨e, h1, h2⟩
          · exact .inl ⟨hrun.trans h1, fun e hc => h2 e (hfirst.1 hc)⟩
          · exact .inr ⟨e, hrun.trans h1, fun e' => hfirst.trans (h2 e')⟩
        · rw [if_neg hm] at hrun
          refine .inr ⟨.assertion, hrun, fun e' => ⟨fun hc => ?_, fun he => ?_⟩⟩
          · rcases first hc with ⟨⟨a, h1, h2⟩, _⟩ | ⟨_, h1⟩ | h1
            · rw [hgp] at h1; rw [hgq] at h2
              cases h1; cases h2
              exact absurd rfl hm
            · rw [hgp, hgq] at h1; simp at h1
            · exact h1.1
          · exact ⟨[], q, qs, rfl, by simp, .inr ⟨he, m, m', by rw [hgp]; rfl, by rw [hgq]; rfl, hm⟩⟩

theorem raises_of_ok (hi : Inv w L) (o : Op) {L' : AWorld} (h : o.spec L = .ok () L') (hf : ∀ e, ¬ o.Fails w e) (e : Err) : o.raises w = some e ↔ o.Fails w e := by
  rw [hi.raises, h]
  exact ⟨fun h => (nomatch h), fun h => absurd h (hf e)⟩

theorem raises_of_error (hi : Inv w L) (o : Op) {L' : AWorld} {e : Err} (h : o.spec L = .error e L') (hf : ∀ e', o.Fails w e' ↔ e' = e) (e' : Err) :
    o.raises w = some e' ↔ o.Fails w e' := by
  rw [hi.raises, h, hf]
  exact ⟨fun h => (Option.some.inj h).symm, fun h => congrArg some h.symm⟩

end

section
variable {ops : List Op}

theorem raises_cross (h : Proper ops) {p : PId} {qs : List PId} {ord : List MId} (hp : p < (runOps ops {}).gps.length) (hq : ∀ q ∈ qs, q < (runOps ops {}).gps.length)
    (hn : ord.Nodup) (ho : ∀ m, m ∈ ord ↔ m ∈ groups (runOps ops {}) p ∧ ∀ q ∈ qs, m ∈ groups (runOps ops {}) q) {o : Op}
    (hc : o = .cross (p :: qs) ord ∨ ∃ q, qs = [q] ∧ (o = .add p q ord ∨ o = .mul p q ord)) (e : Err) : o.raises (runOps ops {}) = some e ↔ Clash (runOps ops {}) p qs e := by
  have hi := Inv.reach ops
  have hg := good_of_proper ops h
  have hF : ∀ e, o.Fails (runOps ops {}) e ↔ Clash (runOps ops {}) p qs e := fun e => by
    rcases hc with rfl | ⟨q, rfl, rfl | rfl⟩ <;> exact Iff.rfl
  rw [← hF]
  have hperm : ord.Perm (common (specOps ops {}).new p qs) :=
    (List.perm_ext_iff_of_nodup hn (common_nodup hg.new.wf p qs)).2 fun m => by rw [ho, mem_common_groups hi]
  rcases assertSame_spec hi hp qs hq with ⟨h1, h2⟩ | ⟨e', h1, h2⟩
  · have hs : SamePrimary (specOps ops {}) p qs := fun q hq' => by
      obtain ⟨m, l, l', k1, k2⟩ := (aAssertSame_ok h1).2 q hq'
      rw [new_gps (hi.some_gps hp)] at k1
      rw [new_gps (hi.some_gps (hq q hq'))] at k2
      exact ⟨m, l, l', by rw [hi.some_gps hp, ← k1], by rw [hi.some_gps (hq q hq'), ← k2]⟩
    have hlen : ∀ {q}, q < (runOps ops {}).gps.length → q < (specOps ops {}).gps.length := fun {q} h => by rw [← hi.rel.gps]; exact h
    have hno : ∀ e, ¬ o.Fails (runOps ops {}) e := fun e hf => h2 e ((hF e).1 hf)
    rcases hc with rfl | ⟨q, rfl, rfl | rfl⟩
    · exact raises_of_ok hi _ (bind_of_ok (hg.cross hs (hlen hp) (fun q hq' => hlen (hq q hq')) hperm)) hno e
    · exact raises_of_ok hi _ (bind_of_ok (hg.add hs hperm)) hno e
    · exact raises_of_ok hi _ (bind_of_ok (hg.gpMul hs hperm)) hno e
  · have hI : aIntersection p qs (specOps ops {}).new = .error e' (specOps ops {}).new := bind_of_error h1
    have hyes : ∀ e, o.Fails (runOps ops {}) e ↔ e = e' := fun e => (hF e).trans (h2 e)
    rcases hc with rfl | ⟨q, rfl, rfl | rfl⟩
    all_goals exact raises_of_error hi _ (bind_of_error (newGP_bind.trans (bind_of_error hI))) hyes e

theorem Inv.taken {w : World} {L : AWorld} (hi : Inv w L) {m : MId} {a : AMeas} (ha : L.ms[m]? = some a) (p : PId) (n : String) :
    ((a.unname p).gpsByName.lookup n).isSome ↔ Taken w m p n := by
  rw [isSome_lookup_unname (hi.wf.names m a ha)]
  exact exists_congr fun q => and_congr_right fun _ => by rw [hi.gpNamed ha]

/-- Naming a process in several measures. -/
theorem forM_setName (p : PId) (n : String) : ∀ (ms : List MId) (L : AWorld), ms.Nodup → (∀ m ∈ ms, ∃ a, L.ms[m]? = some a) →
    (∃ L', ms.forM (fun m => aSetName m p n) L = .ok () L' ∧ ∀ m ∈ ms, ∀ a, L.ms[m]? = some a → ¬ ((a.unname p).gpsByName.lookup n).isSome) ∨
    ∃ L', ms.forM (fun m => aSetName m p n) L = .error .runtime L' ∧ ∃ m ∈ ms, ∃ a, L.ms[m]? = some a ∧ ((a.unname p).gpsByName.lookup n).isSome
  | [], L, _, _ => .inl ⟨L, rfl, by simp⟩
  | m :: ms, L, hn, hm => by
    obtain ⟨hn1, hn2⟩ := List.nodup_cons.1 hn
    obtain ⟨a, ha⟩ := hm m (by simp)
    have hs := setName_spec ha p n
    by_cases hc : ((a.unname p).gpsByName.lookup n).isSome
    · rw [if_pos hc] at hs
      exact .inr ⟨_, bind_of_error hs, m, by simp, a, ha, hc⟩
    · rw [if_neg hc] at hs
      have hkeep : ∀ m' ∈ ms, (L.mod m (·.named p n)).ms[m']? = L.ms[m']? := fun m' hm' => by
        rw [mod_ms, if_neg (fun he : m = m' => hn1 (by rw [he]; exact hm'))]
      rcases forM_setName p n ms (L.mod m (·.named p n)) hn2 (fun m' hm' => by rw [hkeep m' hm']; exact hm m' (by simp [hm'])) with ⟨L', h1, h2⟩ | ⟨L', h1, m', hm', a', h2, h3⟩
      · refine .inl ⟨L', (bind_of_ok hs).trans h1, fun m' hm' a' ha' => ?_⟩
        rcases List.mem_cons.1 hm' with rfl | hm'
        · rw [ha] at ha'; cases ha'; exact hc
        · exact h2 m' hm' a' (by rw [hkeep m' hm']; exact ha')
      · exact .inr ⟨L', (bind_of_ok hs).trans h1, m', by simp [hm'], a', by rw [← hkeep m' hm']; exact h2, h3⟩

theorem raises_gpName {p : PId} {n : String} (hp : p < (runOps ops {}).gps.length) (e : Err) :
    (Op.gpName p n).raises (runOps ops {}) = some e ↔ (Op.gpName p n).Fails (runOps ops {}) e := by
  have hi := Inv.reach ops
  have hg := hi.some_gps hp
  have hm : aMeasuresOf p (specOps ops {}) = .ok (groups (runOps ops {}) p) (specOps ops {}) := by simp only [aMeasuresOf, hg]
  rcases forM_setName p n (groups (runOps ops {}) p) (specOps ops {}) (hi.wf.gps_nodup p _ hg) (fun m hm => by
    obtain ⟨a, ha, _⟩ := hi.wf.gps_mem p _ hg m hm
    exact ⟨a, ha⟩) with ⟨L', h1, h2⟩ | ⟨L', h1, m, hm', a, ha, h2⟩
  · refine raises_of_ok hi (.gpName p n) ((bind_of_ok hm).trans h1) ?_ e
    rintro e' ⟨-, m, hm', ht⟩
    obtain ⟨a, ha, _⟩ := hi.wf.gps_mem p _ hg m hm'
    exact h2 m hm' a ha ((hi.taken ha p n).2 ht)
  · exact raises_of_error hi (.gpName p n) ((bind_of_ok hm).trans h1) (fun e' => ⟨fun h => h.1, fun h => ⟨h, m, hm', (hi.taken ha p n).1 h2⟩⟩) e

theorem raises_name {m : MId} {p : PId} {n : String} (hm : HasMeasure (runOps ops {}) m) (e : Err) :
    (Op.name m p n).raises (runOps ops {}) = some e ↔ (Op.name m p n).Fails (runOps ops {}) e := by
  have hi := Inv.reach ops
  obtain ⟨a, ha⟩ := hi.hasMeasure hm
  have hs := setName_spec ha p n
  by_cases hc : ((a.unname p).gpsByName.lookup n).isSome
  · rw [if_pos hc] at hs
    exact raises_of_error hi (.name m p n) hs (fun e' => ⟨fun h => h.1, fun h => ⟨h, (hi.taken ha p n).1 hc⟩⟩) e
  · rw [if_neg hc] at hs
    exact raises_of_ok hi (.name m p n) hs (fun e' h => hc ((hi.taken ha p n).2 h.2)) e

theorem Inv.knows {w : World} {L : AWorld} (hi : Inv w L) {m : MId} (hm : HasMeasure w m) (ps : List PId) (h : ∀ p ∈ ps, Attached w m p) : Knows L m ps := by
  obtain ⟨a, ha⟩ := hi.hasMeasure hm
  refine ⟨a, ha, fun p hp => ?_⟩
  obtain ⟨b, hb, hpb⟩ := hi.attached.1 (h p hp)
  rw [ha] at hb
  cases hb
  exact hpb

theorem define_indep {mean : MExpr} {kernel : KExpr} (m : MId) (p : PId) (L : AWorld) :
    aDefine m p (.indep mean kernel) L = .ok () (L.push m p (.indep mean kernel)) := by
  unfold aDefine
  exact if_pos ⟨rfl, rfl⟩

theorem init_run {mean : MExpr} {kernel : KExpr} {om : Option MId} {on : Option String} {L L1 : AWorld} {m : MId} (hr : aResolve om L.new = .ok m L1) :
    aInit mean kernel om on L = (do aNameNew m L.gps.length on; pure L.gps.length : AM PId) (L1.push m L.gps.length (.indep mean kernel)) :=
  newGP_bind.trans ((bind_of_ok hr).trans (bind_of_ok (define_indep _ _ _)))

theorem name_run {m : MId} {p : PId} {n : String} {L : AWorld} {r : EStateM.Result Err AWorld Unit} (hn : n ≠ "") (h : aSetName m p n L = r) :
    aNameNew m p (some n) L = r :=
  (congrFun (if_neg hn) _).trans h

theorem raises_gp {mean : MExpr} {kernel : KExpr} {om : Option MId} {on : Option String} (hm : ∀ m, om = some m → HasMeasure (runOps ops {}) m) (e : Err) :
    (Op.gp mean kernel om on).raises (runOps ops {}) = some e ↔ (Op.gp mean kernel om on).Fails (runOps ops {}) e := by
  have hi := Inv.reach ops
  have hlen : (runOps ops {}).gps.length = (specOps ops {}).gps.length := by rw [hi.rel.gps]
  have hskip : ∀ {m L1}, aResolve om (specOps ops {}).new = .ok m L1 → (∀ n, on = some n → n = "") →
      ((Op.gp mean kernel om on).raises (runOps ops {}) = some e ↔ (Op.gp mean kernel om on).Fails (runOps ops {}) e) := by
    intro m L1 hr hon
    have hname : aNameNew m (specOps ops {}).gps.length on (L1.push m (specOps ops {}).gps.length (.indep mean kernel)) =
        .ok () (L1.push m (specOps ops {}).gps.length (.indep mean kernel)) := by
      cases on with
      | none => rfl
      | some n => exact congrFun (if_pos (hon n rfl)) _
    refine raises_of_ok hi _ (bind_of_ok ((init_run hr).trans (bind_of_ok hname))) ?_ e
    rintro e' ⟨-, m, n, -, h1, h2, -⟩
    exact h2 (hon n h1)
  by_cases hr : ∃ m, om = some m ∨ om = none ∧ (runOps ops {}).default = some m
  · obtain ⟨m, hr⟩ := hr
    have hhas : HasMeasure (runOps ops {}) m := by
      rcases hr with hr | ⟨_, hr⟩
      · exact hm m hr
      · unfold HasMeasure
        rw [hi.rel.len]
        exact hi.wf.default m (by rw [← hi.rel.default]; exact hr)
    have huniq : ∀ m', (om = some m' ∨ om = none ∧ (runOps ops {}).default = some m') → m' = m := by
      rintro m' (h1 | ⟨h1, h2⟩) <;> rcases hr with h3 | ⟨h3, h4⟩
      · rw [h1] at h3; exact Option.some.inj h3
      · rw [h1] at h3; cases h3
      · rw [h1] at h3; cases h3
      · rw [h2] at h4; exact Option.some.inj h4
    obtain ⟨a, ha⟩ := hi.hasMeasure hhas
    have ha' : (specOps ops {}).new.ms[m]? = some a := ha
    have hres : aResolve om (specOps ops {}).new = .ok m (specOps ops {}).new := by
      rcases hr with rfl | ⟨rfl, hd⟩
      · have : aGetMeas m (specOps ops {}).new = .ok a (specOps ops {}).new := by simp only [aGetMeas, ha']
        exact bind_of_ok this
      · rw [hi.rel.default] at hd
        have : (specOps ops {}).new.default = some m := hd
        show (match (specOps ops {}).new.default with | some m => pure m | none => aNewMeasure : AM MId) (specOps ops {}).new = _
        rw [this]; rfl
    by_cases hon : ∀ n, on = some n → n = ""
    · exact hskip hres hon
    · push Not at hon
      obtain ⟨n, rfl, hn⟩ := hon
      have hb : ((specOps ops {}).new.push m (specOps ops {}).gps.length (.indep mean kernel)).ms[m]? =
          some { a with defs := ((specOps ops {}).gps.length, .indep mean kernel) :: a.defs } := by
        rw [push_ms, if_pos rfl, ha']; rfl
      have hs := setName_spec hb (specOps ops {}).gps.length n
      have htaken := hi.taken ha (specOps ops {}).gps.length n
      have hsame : ∀ d : List (PId × ProcDef), ({ a with defs := d }.unname (specOps ops {}).gps.length).gpsByName = (a.unname (specOps ops {}).gps.length).gpsByName := by
        intro d
        unfold AMeas.unname
        cases a.namesByGp.lookup (specOps ops {}).gps.length <;> rfl
      rw [hsame] at hs
      by_cases hc : ((a.unname (specOps ops {}).gps.length).gpsByName.lookup n).isSome
      · rw [if_pos hc] at hs
        refine raises_of_error hi (.gp mean kernel om (some n)) (bind_of_error ((init_run hres).trans (bind_of_error (name_run hn hs)))) (fun e' => ⟨fun h => h.1, fun h => ⟨h, m, n, hr, rfl, hn, ?_⟩⟩) e
        rw [hlen]
        exact htaken.1 hc
      · rw [if_neg hc] at hs
        refine raises_of_ok hi _ (bind_of_ok ((init_run hres).trans (bind_of_ok (name_run hn hs)))) ?_ e
        rintro e' ⟨-, m', n', h1, h2, -, h3⟩
        cases h2
        rw [huniq m' h1, hlen] at h3
        exact hc (htaken.2 h3)
  · push Not at hr
    obtain rfl : om = none := by
      cases om with
      | none => rfl
      | some m => exact absurd rfl (hr m).1
    have hd : (specOps ops {}).new.default = none := by
      show (specOps ops {}).default = none
      rw [← hi.rel.default]
      cases hd : (runOps ops {}).default with
      | none => rfl
      | some m => exact absurd hd ((hr m).2 rfl)
    have hres : aResolve none (specOps ops {}).new = .ok (specOps ops {}).ms.length { (specOps ops {}).new with ms := (specOps ops {}).ms ++ [({} : AMeas)] } := by
      show (match (specOps ops {}).new.default with | some m => pure m | none => aNewMeasure : AM MId) (specOps ops {}).new = _
      rw [hd]; rfl
    by_cases hon : ∀ n, on = some n → n = ""
    · exact hskip hres hon
    · push Not at hon
      obtain ⟨n, rfl, hn⟩ := hon
      have hb : (({ (specOps ops {}).new with ms := (specOps ops {}).ms ++ [({} : AMeas)] } : AWorld).push (specOps ops {}).ms.length (specOps ops {}).gps.length
          (.indep mean kernel)).ms[(specOps ops {}).ms.length]? = some { ({} : AMeas) with defs := [((specOps ops {}).gps.length, .indep mean kernel)] } := by
        rw [push_ms, if_pos rfl]
        simp
      have hs := setName_spec hb (specOps ops {}).gps.length n
      rw [if_neg (by simp [AMeas.unname])] at hs
      refine raises_of_ok hi _ (bind_of_ok ((init_run hres).trans (bind_of_ok (name_run hn hs)))) ?_ e
      rintro e' ⟨-, m, -, h1 | h1, -⟩
      · cases h1
      · exact (hr m).2 rfl h1.2

/-- **C67.** In a proper program, an operation whose arguments exist raises if and only if `Op.Fails` says so, and then the exception is the one `Op.Fails` says. -/
theorem C67_raises (h : Proper ops) (o : Op) (ho : o.Refers (runOps ops {})) (e : Err) : o.raises (runOps ops {}) = some e ↔ o.Fails (runOps ops {}) e := by
  have hi := Inv.reach ops
  have hg := good_of_proper ops h
  have unary : ∀ (o : Op) p, o.unaryOn = some p → p < (runOps ops {}).gps.length → (∀ e, ¬ o.Fails (runOps ops {}) e) →
      (o.raises (runOps ops {}) = some e ↔ o.Fails (runOps ops {}) e) := by
    intro o p ho hp hf
    obtain ⟨d, hd, hs⟩ := unary_spec ho
    exact raises_of_ok hi o ((congrFun hs _).trans (bind_of_ok (hg.unary (hi.some_gps hp) hd))) hf e
  have getm : ∀ {m : MId} {a}, (specOps ops {}).ms[m]? = some a → aGetMeas m (specOps ops {}) = .ok a (specOps ops {}) := fun ha => by simp only [aGetMeas, ha]
  have getm' : ∀ {m : MId} {a}, (specOps ops {}).ms[m]? = some a → aGetMeas m (specOps ops {}).new = .ok a (specOps ops {}).new := fun {m a} ha => by
    have ha' : (specOps ops {}).new.ms[m]? = some a := ha
    simp only [aGetMeas, ha']
  cases o with
  | newMeasure => exact raises_of_ok hi .newMeasure rfl (fun _ h => h) e
  | newGP => exact raises_of_ok hi .newGP rfl (fun _ h => h) e
  | gp mean kernel om on => exact raises_gp ho e
  | addFn p f => exact unary _ p rfl ho (fun _ h => h)
  | scale p c => exact unary _ p rfl ho (fun _ h => h)
  | fmul p f => exact unary _ p rfl ho (fun _ h => h)
  | pre p t => exact unary _ p rfl ho (fun _ h => h)
  | diff p d => exact unary _ p rfl ho (fun _ h => h)
  | add p q ord =>
    obtain ⟨hp, hq, hn, hord⟩ := ho
    exact raises_cross h hp (qs := [q]) (by simpa using hq) hn (by simpa using hord) (.inr ⟨q, rfl, .inl rfl⟩) e
  | mul p q ord =>
    obtain ⟨hp, hq, hn, hord⟩ := ho
    exact raises_cross h hp (qs := [q]) (by simpa using hq) hn (by simpa using hord) (.inr ⟨q, rfl, .inr rfl⟩) e
  | cross ps ord =>
    obtain ⟨hp, hn, hord⟩ := ho
    cases ps with
    | nil => exact raises_of_error hi (.cross [] ord) (bind_of_error newGP_bind) (fun _ => Iff.rfl) e
    | cons p qs => exact raises_cross h (hp p (by simp)) (fun q hq => hp q (by simp [hq])) hn (hord p qs rfl) (.inl rfl) e
  | addGP m mean kernel left right =>
    obtain ⟨hm, hl⟩ := ho
    obtain ⟨a, ha, hk⟩ := hi.knows hm _ hl
    have hall : left.refs.all (a.ps.contains ·) = true := by simpa using hk
    have hdef := hg.new.define (m := m) (d := .custom mean kernel left) ⟨a, ha, hk⟩ (specOps ops {}).gps.length
    exact raises_of_ok hi (.addGP m mean kernel left right) (bind_of_ok ((bind_of_ok (getm ha)).trans ((congrFun (if_pos hall) _).trans (newGP_bind.trans (bind_of_ok hdef))))) (fun _ h => h) e
  | call m p =>
    obtain ⟨a, ha⟩ := hi.hasMeasure ho
    by_cases hp : Attached (runOps ops {}) m p
    · have hdef := hg.new.define (m := m) (d := .copy p) (hi.knows ho _ (by simpa [ProcDef.refs] using hp)) (specOps ops {}).gps.length
      exact raises_of_ok hi (.call m p) (bind_of_ok (newGP_bind.trans ((bind_of_ok (getm' ha)).trans (bind_of_ok hdef)))) (fun _ h => h.2 hp) e
    · have hk : (specOps ops {}).mean m p = none := by
        cases hk : (specOps ops {}).mean m p with
        | none => rfl
        | some k =>
          rw [mean_eq hi.wf.ms.stable.base_lt ha] at hk
          exact absurd (hi.attached.2 ⟨a, ha, lookMDefs_known hk⟩) hp
      have hdef : aDefine m (specOps ops {}).gps.length (.copy p) (specOps ops {}).new = .error .runtime (specOps ops {}).new := by
        unfold aDefine
        refine if_neg fun hc => ?_
        have : (specOps ops {}).new.mean m p = none := hk
        have h1 := hc.1
        simp [defMean, this] at h1
      exact raises_of_error hi (.call m p) (bind_of_error (newGP_bind.trans ((bind_of_ok (getm' ha)).trans (bind_of_error hdef)))) (fun _ => ⟨fun h => h.1, fun h => ⟨h, hp⟩⟩) e
  | condition m obs =>
    obtain ⟨a, ha⟩ := hi.hasMeasure ho
    have : aCondition m obs (specOps ops {}) = .ok (specOps ops {}).ms.length ((specOps ops {}).cond m a obs) := by simp only [aCondition, ha]
    exact raises_of_ok hi (.condition m obs) (bind_of_ok this) (fun _ h => h) e
  | getM m p =>
    have hm : m < (specOps ops {}).ms.length := by rw [← hi.rel.len]; exact ho
    obtain ⟨a, ha⟩ := hi.hasMeasure ho
    by_cases hp : Attached (runOps ops {}) m p
    · obtain ⟨b, hb, hpb⟩ := hi.attached.1 hp
      obtain ⟨k, hk⟩ := Option.isSome_iff_exists.1 ((total hi.wf.ms hg.sane m b hb).1 p hpb)
      have : aGetM m p (specOps ops {}) = .ok k (specOps ops {}) := by simp only [aGetM, if_pos hm, hk]
      exact raises_of_ok hi (.getM m p) (bind_of_ok this) (fun _ h => h.2 hp) e
    · have hk : (specOps ops {}).mean m p = none := by
        cases hk : (specOps ops {}).mean m p with
        | none => rfl
        | some k =>
          rw [mean_eq hi.wf.ms.stable.base_lt ha] at hk
          exact absurd (hi.attached.2 ⟨a, ha, lookMDefs_known hk⟩) hp
      have : aGetM m p (specOps ops {}) = .error .runtime (specOps ops {}) := by simp only [aGetM, if_pos hm, hk]
      exact raises_of_error hi (.getM m p) (bind_of_error this) (fun _ => ⟨fun h => h.1, fun h => ⟨h, hp⟩⟩) e
  | getK m p q =>
    have hm : m < (specOps ops {}).ms.length := by rw [← hi.rel.len]; exact ho
    obtain ⟨a, ha⟩ := hi.hasMeasure ho
    by_cases hp : Attached (runOps ops {}) m p ∧ Attached (runOps ops {}) m q
    · obtain ⟨b, hb, hk⟩ := hi.knows ho [p, q] (by simpa using hp)
      obtain ⟨k, hk⟩ := Option.isSome_iff_exists.1 ((total hi.wf.ms hg.sane m b hb).2 p (hk p (by simp)) q (hk q (by simp)))
      have : aGetK m p q (specOps ops {}) = .ok k (specOps ops {}) := by simp only [aGetK, if_pos hm, hk]
      exact raises_of_ok hi (.getK m p q) (bind_of_ok this) (fun _ h => h.2 hp) e
    · have hk : (specOps ops {}).kernel m p q = none := by
        cases hk : (specOps ops {}).kernel m p q with
        | none => rfl
        | some k =>
          rw [kernel_eq hi.wf.ms.stable.base_lt ha] at hk
          obtain ⟨h1, h2⟩ := lookKDefs_known hk
          exact absurd ⟨hi.attached.2 ⟨a, ha, h1⟩, hi.attached.2 ⟨a, ha, h2⟩⟩ hp
      have : aGetK m p q (specOps ops {}) = .error .runtime (specOps ops {}) := by simp only [aGetK, if_pos hm, hk]
      exact raises_of_error hi (.getK m p q) (bind_of_error this) (fun _ => ⟨fun h => h.1, fun h => ⟨h, hp⟩⟩) e
  | name m p n => exact raises_name ho e
  | gpName p n => exact raises_gpName ho e
  | enter m =>
    obtain ⟨a, ha⟩ := hi.hasMeasure ho
    exact raises_of_ok hi (.enter m) (bind_of_ok (getm ha)) (fun _ h => h) e
  | exit m =>
    obtain ⟨a, ha⟩ := hi.hasMeasure ho
    exact raises_of_ok hi (.exit m) (bind_of_ok (getm ha)) (fun _ h => h) e

/-- **C67, what cannot fail.** Creating measures and processes without a name, deriving a process from one process, adding a process with a rule, conditioning, and
entering and leaving a measure never raise. -/
theorem C67_returns (h : Proper ops) (o : Op) (ho : o.Refers (runOps ops {})) : o.raises (runOps ops {}) = none ↔ ∀ e, ¬ o.Fails (runOps ops {}) e := by
  rw [Option.eq_none_iff_forall_ne_some]
  exact forall_congr' fun e => not_congr (C67_raises h o ho e)

end

/-- Processes 0 and 3 of `demo` have different first measures. -/
example : (Op.add 0 3 [1]).raises (runOps demo {}) = some .assertion := by
  refine (C67_raises demo_proper (.add 0 3 [1]) ⟨by decide +kernel, by decide +kernel, by simp, fun m => ?_⟩ .assertion).2 ?_
  · change m ∈ [1] ↔ m ∈ [0, 1] ∧ m ∈ [1]
    simp
    omega
  · exact ⟨[], 3, [], rfl, by simp, .inr ⟨rfl, 0, 1, rfl, rfl, by decide⟩⟩

/-- Processes 0 and 1 of `demo` have the same first measure, so their product exists. -/
example : (Op.mul 0 1 [1, 0]).raises (runOps demo {}) = none := by
  refine (C67_returns demo_proper (.mul 0 1 [1, 0]) ⟨by decide +kernel, by decide +kernel, by simp, fun m => ?_⟩).2 ?_
  · change m ∈ [1, 0] ↔ m ∈ [0, 1] ∧ m ∈ [0, 1]
    simp
    omega
  · rintro e ⟨before, q, after, h1, -, h2⟩
    obtain rfl : q = 1 := by
      cases before with
      | nil => cases h1; rfl
      | cons b before => simp at h1
    rcases h2 with ⟨-, h2 | h2⟩ | ⟨-, m, m', h2, h3, h4⟩
    · exact absurd (show [0, 1] = [] from h2) (by simp)
    · exact absurd (show [0, 1] = [] from h2) (by simp)
    · have e2 : some 0 = some m := h2
      have e3 : some 0 = some m' := h3
      rw [Option.some.inj e2] at e3
      exact h4 (Option.some.inj e3)

/-- The name `g` is taken in measure 0 of `demo`, also for a new process. -/
example : (Op.gp .zero .zero (some 0) (some "g")).raises (runOps demo {}) = some .runtime :=
  (C67_raises demo_proper (.gp .zero .zero (some 0) (some "g")) (fun m h => by cases h; exact Nat.lt_of_sub_eq_succ rfl) .runtime).2 ⟨rfl, 0, "g", .inl rfl, rfl, by decide, 1, by decide +kernel, rfl⟩

/-- Without a measure a new one is created, in which the name is free. -/
example : (Op.gp .zero .zero none (some "g")).raises (runOps demo {}) = none :=
  (C67_returns demo_proper (.gp .zero .zero none (some "g")) (fun m h => by cases h)).2 fun e ⟨_, m, n, h, _⟩ => by
    rcases h with h | ⟨_, h⟩
    · cases h
    · exact absurd (show none = some m from h) (by simp)

end Stheno
