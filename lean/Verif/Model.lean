import Verif.Sound
import Verif.Api

/-!
# Readings of programs

A program is read as a collection of random variables that satisfy the equations the user wrote. This file says
what that means, in terms of the operations of the program and of what a user can observe of the heap. It does
not refer to the specification machine.
-/

namespace Stheno

/-- `measure.ps` (`stheno/model/measure.py:38`), in order of attachment. -/
def members (w : World) (m : MId) : List PId := ((w.ms[m]?).map (·.ps)).getD []

/-- The processes that an operation creates in measure `m` if there are `n` processes before, in the order in which
they are attached, with what they stand for. The product (`stheno/model/measure.py:253-269`) creates the processes
`mean(q) * p`, `mean(p) * q`, their sum, an independent remainder, and the sum of the last two. -/
def Op.written (n : ℕ) (m : MId) : Op → List (PId × ProcDef)
  | .gp mean kernel _ _ => [(n, .indep mean kernel)]
  | .addFn p f => [(n, .addFn p f)]
  | .add p q _ => [(n, .sum p q)]
  | .scale p c => [(n, .scale p c)]
  | .fmul p f => [(n, .fmul p f)]
  | .mul p q ord =>
    let b := n + 1 + 4 * ord.idxOf m
    [(b + 1, .fmul q (.meanOf m p)), (b + 2, .fmul p (.meanOf m q)), (b, .sum (b + 1) (b + 2)),
      (b + 3, .rem p q), (n, .sum b (b + 3))]
  | .pre p t => [(n, .pre p t)]
  | .diff p d => [(n, .diff p d)]
  | .cross ps _ => [(n, .cross ps)]
  | .addGP _ mean kernel left _ => [(n, .custom mean kernel left)]
  | .call _ p => [(n, .copy p)]
  | _ => []

section
variable {V : Type} [AddCommGroup V] [Module ℝ V]

/-- The random variables `I` satisfy the equations of the program: every process is, in every measure it is attached
to by the operation that creates it, the random function the user wrote; and every posterior is the Gaussian update
of its prior. Means and kernels given by the user may refer to other processes, so they are evaluated in the final
state. -/
structure Interp.Reads (I : Interp V) (ops : List Op) : Prop where
  ok : ∀ m p, (I.F m p).OK
  one_E : ∀ m, (I.S m).E I.one = 1
  one_C : ∀ m v, (I.S m).C I.one v = 0
  defs : ∀ before o after, ops = before ++ o :: after → ∀ (m : MId) older r d younger,
    o.written (runOps before {}).gps.length m = older ++ (r, d) :: younger →
    Attached (runOps (before ++ [o]) {}) m r →
    I.DefLaw (meanAt (runOps ops {})) (kernelAt (runOps ops {})) m
      (members (runOps before {}) m ++ older.map (·.1)) r d
  post : ∀ before m obs after, ops = before ++ .condition m obs :: after → HasMeasure (runOps before {}) m →
    (∀ p ∈ members (runOps before {}) m, I.F (runOps before {}).ms.length p = I.F m p) ∧
    I.PostLaw m (I.S (runOps before {}).ms.length) obs

end

/-! ## What operations write -/

/-- The base and the definitions of a measure. -/
def AMeas.core (a : AMeas) : Option URule × List PId × List (PId × ProcDef) := (a.base, a.basePs, a.defs)

/-- `L` is `L0` with definitions `D m` added to measure `m`. -/
def Grown (D : MId → List (PId × ProcDef)) (L0 L : AWorld) : Prop :=
  ∀ m : MId, L.ms[m]?.map AMeas.core = L0.ms[m]?.map fun a => (a.base, a.basePs, D m ++ a.defs)

section Grown
variable {D : MId → List (PId × ProcDef)} {L0 L L' : AWorld}

theorem Grown.refl (L : AWorld) : Grown (fun _ => []) L L := fun m => by
  cases L.ms[m]? <;> rfl

theorem Grown.same (h : Grown D L0 L) (hm : ∀ m : MId, L'.ms[m]?.map AMeas.core = L.ms[m]?.map AMeas.core) :
    Grown D L0 L' := fun m => by rw [hm m, h m]

theorem Grown.push (h : Grown D L0 L) (m : MId) (p : PId) (d : ProcDef) :
    Grown (fun m' => if m' = m then (p, d) :: D m' else D m') L0 (L.push m p d) := by
  intro m'
  have hm := h m'
  rw [push_ms]
  show _ = L0.ms[m']?.map fun a => (a.base, a.basePs, (if m' = m then (p, d) :: D m' else D m') ++ a.defs)
  by_cases e : m = m'
  · subst e
    rw [if_pos rfl, if_pos rfl]
    cases h0 : L0.ms[m]? with
    | none =>
      rw [h0] at hm
      have : L.ms[m]? = none := by simpa using hm
      rw [this]; rfl
    | some a =>
      rw [h0] at hm
      cases h1 : L.ms[m]? with
      | none => rw [h1] at hm; cases hm
      | some a' =>
        rw [h1] at hm
        simp only [Option.map_some, AMeas.core, Option.some.injEq, Prod.mk.injEq] at hm ⊢
        exact ⟨hm.1, hm.2.1, by rw [hm.2.2]; rfl⟩
  · rw [if_neg e, if_neg (Ne.symm e)]
    exact hm

end Grown

/-! ### Programs that do not write -/

/-- The program does not change the state. -/
def Pure {α : Type} (c : AM α) : Prop := ∀ L, (∃ v, c L = .ok v L) ∨ ∃ e, c L = .error e L

theorem Pure.bind {α β : Type} {c : AM α} {f : α → AM β} (hc : Pure c) (hf : ∀ v, Pure (f v)) :
    Pure (c >>= f) := by
  intro L
  rcases hc L with ⟨v, h⟩ | ⟨e, h⟩
  · rw [bind_of_ok h]; exact hf v L
  · rw [bind_of_error h]; exact .inr ⟨e, rfl⟩

theorem Pure.pure {α : Type} (v : α) : Pure (pure v : AM α) := fun _ => .inl ⟨v, rfl⟩
theorem Pure.throw {α : Type} (e : Err) : Pure (throw e : AM α) := fun _ => .inr ⟨e, rfl⟩

theorem pure_measuresOf (p : PId) : Pure (aMeasuresOf p) := by
  intro L
  unfold aMeasuresOf
  cases L.gps[p]? with
  | none => exact .inr ⟨_, rfl⟩
  | some l => exact .inl ⟨l, rfl⟩

theorem pure_getMeas (m : MId) : Pure (aGetMeas m) := by
  intro L
  unfold aGetMeas
  cases L.ms[m]? with
  | none => exact .inr ⟨_, rfl⟩
  | some l => exact .inl ⟨l, rfl⟩

theorem pure_primary (p : PId) : Pure (aPrimary p) := by
  intro L
  rw [aPrimary_eq]
  rcases L.gps[p]? with _ | (_ | ⟨m, l⟩)
  · exact .inr ⟨_, rfl⟩
  · exact .inr ⟨_, rfl⟩
  · exact .inl ⟨m, rfl⟩

theorem pure_assertSame (p : PId) : (qs : List PId) → Pure (aAssertSame p qs)
  | [] => Pure.pure _
  | q :: qs => (pure_primary p).bind fun mp => (pure_primary q).bind fun mq => by
    by_cases h : mp = mq
    · rw [if_pos h]; exact pure_assertSame p qs
    · rw [if_neg h]; exact Pure.throw _

theorem pure_mapM : (ps : List PId) → Pure (ps.mapM aMeasuresOf)
  | [] => by rw [List.mapM_nil]; exact Pure.pure _
  | p :: ps => by
    rw [List.mapM_cons]
    exact (pure_measuresOf p).bind fun _ => (pure_mapM ps).bind fun _ => Pure.pure _

theorem pure_intersection (p : PId) (ps : List PId) : Pure (aIntersection p ps) :=
  (pure_assertSame p ps).bind fun _ => (pure_measuresOf p).bind fun _ => (pure_mapM ps).bind fun _ => Pure.pure _

/-- A program either defines `res` by `d` in `m` and returns, or does nothing and raises. -/
def Defines (c : AM Unit) (m : MId) (res : PId) (d : ProcDef) : Prop :=
  ∀ L, c L = .ok () (L.push m res d) ∨ ∃ e, c L = .error e L

theorem defines_define (m : MId) (p : PId) (d : ProcDef) : Defines (aDefine m p d) m p d := by
  intro L
  unfold aDefine
  by_cases hc : (defMean m (L.mean m) d).isSome ∧ (defKernel m (L.kernel m) d).isSome
  · rw [if_pos hc]; exact .inl rfl
  · rw [if_neg hc]; exact .inr ⟨_, rfl⟩

theorem defines_sum (m : MId) (res p q : PId) : Defines (aSum m res p q) m res (.sum p q) := by
  intro L
  unfold aSum
  rcases pure_assertSame p [q] L with ⟨v, h⟩ | ⟨e, h⟩
  · rw [bind_of_ok h]; exact defines_define m res _ L
  · rw [bind_of_error h]; exact .inr ⟨e, rfl⟩

section Within
variable {D : MId → List (PId × ProcDef)} {L0 L : AWorld}

theorem after_error {α : Type} {c : AM α} {L L' : AWorld} {e : Err} (h : c L = .error e L') : AM.after c L = L' := by
  unfold AM.after; rw [h]

theorem after_ok {α : Type} {c : AM α} {L L' : AWorld} {v : α} (h : c L = .ok v L') : AM.after c L = L' := by
  unfold AM.after; rw [h]

theorem after_bind_ok {α β : Type} {c : AM α} {f : α → AM β} {L L1 : AWorld} {u : α}
    (h : c L = .ok u L1) : AM.after (c >>= f) L = AM.after (f u) L1 := by
  unfold AM.after; rw [bind_of_ok h]

theorem after_bind_error {α β : Type} {c : AM α} {f : α → AM β} {L L1 : AWorld} {e : Err}
    (h : c L = .error e L1) : AM.after (c >>= f) L = L1 := by
  unfold AM.after; rw [bind_of_error h]

/-- A bind whose second part is the end of the program. -/
theorem after_bind_pure {α β : Type} {c : AM α} {v : β} {L : AWorld} :
    AM.after (c >>= fun _ => pure v) L = AM.after c L := by
  cases h : c L with
  | ok u L1 => rw [after_bind_ok h, after_ok h]; rfl
  | error e L1 => rw [after_bind_error h, after_error h]

/-- The definitions added to each measure are the first of `D`. -/
def Within (D : MId → List (PId × ProcDef)) (L0 L : AWorld) : Prop :=
  ∃ D', Grown D' L0 L ∧ ∀ m, D' m <:+ D m

theorem Within.refl (L : AWorld) : Within D L L := ⟨_, Grown.refl L, fun _ => List.nil_suffix⟩

theorem Within.mono {D' : MId → List (PId × ProcDef)} (h : Within D L0 L) (hm : ∀ m, D m <:+ D' m) :
    Within D' L0 L := by
  obtain ⟨D1, h1, h2⟩ := h
  exact ⟨D1, h1, fun m => (h2 m).trans (hm m)⟩

theorem Grown.within (h : Grown D L0 L) : Within D L0 L := ⟨D, h, fun _ => List.suffix_rfl⟩

theorem Within.same {L' : AWorld} (h : Within D L0 L)
    (hm : ∀ m : MId, L'.ms[m]?.map AMeas.core = L.ms[m]?.map AMeas.core) : Within D L0 L' := by
  obtain ⟨D1, h1, h2⟩ := h
  exact ⟨D1, h1.same hm, h2⟩

theorem forM_within {f : MId → AM Unit} {res : PId} {d : ProcDef} (hf : ∀ m, Defines (f m) m res d) :
    ∀ {ms : List MId} {L : AWorld} {D : MId → List (PId × ProcDef)}, ms.Nodup → Grown D L0 L →
      (∀ m ∈ ms, D m = []) → (∀ m, D m <:+ [(res, d)]) →
      Within (fun _ => [(res, d)]) L0 (AM.after (ms.forM f) L) := by
  intro ms
  induction ms with
  | nil => intro L D _ h _ hD; exact ⟨D, h, hD⟩
  | cons m ms ih =>
    intro L D hn h h0 hD
    rw [List.nodup_cons] at hn
    show Within _ _ (AM.after (f m >>= fun _ => ms.forM f) L)
    rcases hf m L with h1 | ⟨e, h1⟩
    · rw [after_bind_ok h1]
      refine ih hn.2 (h.push m res d) (fun m' hm' => ?_) (fun m' => ?_)
      · show (if m' = m then _ else _) = _
        rw [if_neg (fun e : m' = m => hn.1 (e ▸ hm'))]
        exact h0 m' (List.mem_cons_of_mem _ hm')
      · show (if m' = m then _ else _) <:+ _
        by_cases e : m' = m
        · rw [if_pos e, e, h0 m (List.mem_cons_self ..)]
        · rw [if_neg e]; exact hD m'
    · rw [after_bind_error h1]; exact ⟨D, h, hD⟩

theorem Grown.new : Grown (fun _ => []) L L.new := Grown.refl L

/-- A loop over measures, none of them twice, that defines `res`. -/
theorem loop_within {f : MId → AM Unit} {res : PId} {d : ProcDef} (hf : ∀ m, Defines (f m) m res d)
    {ms : List MId} (hn : ms.Nodup) (L : AWorld) :
    Within (fun _ => [(res, d)]) L (AM.after (ms.forM f) L.new) :=
  forM_within hf hn Grown.new (fun _ _ => rfl) (fun _ => List.nil_suffix)

theorem unary_within (wf : Wf L) (d : ProcDef) (p : PId) :
    Within (fun _ => [(L.gps.length, d)]) L (AM.after (aUnary d p) L) := by
  unfold aUnary
  rw [after_bind_ok (c := aNewGP) (L1 := L.new) (u := L.gps.length) rfl]
  rcases pure_measuresOf p L.new with ⟨ms, h⟩ | ⟨e, h⟩
  · rw [after_bind_ok h, after_bind_pure]
    exact loop_within (fun m => defines_define m _ d) (wf.new.gps_nodup p ms (aMeasuresOf_ok h).2) L
  · rw [after_bind_error h]; exact Within.refl _

/-- The loop over the common measures of the arguments. -/
theorem group_within (wf : Wf L) {p : PId} {ps : List PId} {ord : List MId} {f : MId → AM Unit} {d : ProcDef}
    (hf : ∀ m, Defines (f m) m L.gps.length d) :
    Within (fun _ => [(L.gps.length, d)]) L (AM.after (do
      let s ← aIntersection p ps
      aIterate s ord f
      pure L.gps.length : AM PId) L.new) := by
  rcases pure_intersection p ps L.new with ⟨s, h⟩ | ⟨e, h⟩
  · rw [after_bind_ok h, after_bind_pure]
    obtain ⟨-, -, rfl, -, -⟩ := aIntersection_ok h
    unfold aIterate
    by_cases hp : ord.isPerm (common L.new p ps)
    · rw [if_pos hp]
      exact loop_within hf ((List.isPerm_iff.1 hp).nodup_iff.2 (common_nodup wf.new p ps)) L
    · rw [if_neg hp]; exact Within.refl _
  · rw [after_bind_error h]; exact Within.refl _

/-- What the product writes in one measure when there are `b` processes. -/
def mulDefs (m : MId) (res p q : PId) (b : ℕ) : List (PId × ProcDef) :=
  [(res, .sum b (b + 3)), (b + 3, .rem p q), (b, .sum (b + 1) (b + 2)), (b + 2, .fmul p (.meanOf m q)),
    (b + 1, .fmul q (.meanOf m p))]

/-- A product returns with all its definitions or raises with some of them. -/
theorem mul_within (m : MId) (res p q : PId) (L : AWorld) :
    (∃ L', aMul m res p q L = .ok () L' ∧ L'.gps.length = L.gps.length + 4 ∧
      ∀ L0 D, Grown D L0 L → Grown (fun m' => if m' = m then mulDefs m res p q L.gps.length ++ D m' else D m') L0 L') ∨
    ∃ e L', aMul m res p q L = .error e L' ∧ ∀ L0 D, Grown D L0 L →
      ∃ l, l <:+ mulDefs m res p q L.gps.length ∧ Grown (fun m' => if m' = m then l ++ D m' else D m') L0 L' := by
  have hp : ∀ {D : MId → List (PId × ProcDef)} {l} {L0 L1 : AWorld} (r : PId) (d : ProcDef),
      Grown (fun m' => if m' = m then l ++ D m' else D m') L0 L1 →
      Grown (fun m' => if m' = m then ((r, d) :: l) ++ D m' else D m') L0 (L1.push m r d) := by
    intro D l L0 L1 r d h
    have := h.push m r d
    have e : (fun m' => if m' = m then (r, d) :: (if m' = m then l ++ D m' else D m') else
        (if m' = m then l ++ D m' else D m')) = fun m' => if m' = m then ((r, d) :: l) ++ D m' else D m' := by
      funext m'
      by_cases e : m' = m
      · simp [e]
      · simp [e]
    rwa [e] at this
  have hz : ∀ {D : MId → List (PId × ProcDef)} {L0 L1 : AWorld}, Grown D L0 L1 →
      Grown (fun m' => if m' = m then [] ++ D m' else D m') L0 L1 := by
    intro D L0 L1 h
    have e : (fun m' => if m' = m then [] ++ D m' else D m') = D := by funext m'; simp
    rwa [e]
  unfold aMul
  rcases pure_assertSame p [q] L with ⟨v, h1⟩ | ⟨e, h1⟩
  swap
  · rw [bind_of_error h1]
    exact .inr ⟨e, L, rfl, fun L0 D h => ⟨[], List.nil_suffix, hz h⟩⟩
  rw [bind_of_ok h1, bind_of_ok (c := aNewGP) (u := L.gps.length) (L1 := L.new) rfl,
    bind_of_ok (c := aNewGP) (u := L.new.gps.length) (L1 := L.new.new) rfl]
  have l1 : L.new.gps.length = L.gps.length + 1 := by simp [AWorld.new]
  have l2 : L.new.new.gps.length = L.gps.length + 2 := by simp [AWorld.new]
  have g0 : ∀ L0 D, Grown D L0 L → Grown (fun m' => if m' = m then [] ++ D m' else D m') L0 L.new.new :=
    fun L0 D h => hz (h.same fun _ => rfl)
  have mono : ∀ l, l <:+ mulDefs m res p q L.gps.length → ∀ L1 (_ : ∀ L0 D, Grown D L0 L →
      Grown (fun m' => if m' = m then l ++ D m' else D m') L0 L1), ∀ L0 D, Grown D L0 L →
      ∃ l, l <:+ mulDefs m res p q L.gps.length ∧ Grown (fun m' => if m' = m then l ++ D m' else D m') L0 L1 :=
    fun l hl L1 h L0 D h0 => ⟨l, hl, h L0 D h0⟩
  rw [l1]
  generalize hL2 : L.new.new = L2 at *
  generalize hn : L.gps.length = n at *
  rcases defines_define m (n + 1) (.fmul q (.meanOf m p)) L2 with h2 | ⟨e, h2⟩
  swap
  · rw [bind_of_error h2]
    exact .inr ⟨e, _, rfl, mono _ List.nil_suffix _ g0⟩
  rw [bind_of_ok h2]
  have g1 : ∀ L0 D, Grown D L0 L → Grown _ L0 _ := fun L0 D h => hp (n + 1) (.fmul q (.meanOf m p)) (g0 L0 D h)
  have l3 : (L2.push m (n + 1) (.fmul q (.meanOf m p))).gps.length = n + 2 := by rw [push_gps_length, l2]
  generalize hL3 : L2.push m (n + 1) (.fmul q (.meanOf m p)) = L3 at *
  rw [bind_of_ok (c := aNewGP) (u := L3.gps.length) (L1 := L3.new) rfl, l3]
  have g1' : ∀ L0 D, Grown D L0 L → Grown _ L0 L3.new := fun L0 D h => (g1 L0 D h).same fun _ => rfl
  have l4 : L3.new.gps.length = n + 3 := by simp [AWorld.new, l3]
  generalize hL4 : L3.new = L4 at *
  rcases defines_define m (n + 2) (.fmul p (.meanOf m q)) L4 with h3 | ⟨e, h3⟩
  swap
  · rw [bind_of_error h3]
    exact .inr ⟨e, _, rfl, mono _ ⟨[(res, .sum n (n + 3)), (n + 3, .rem p q), (n, .sum (n + 1) (n + 2)),
      (n + 2, .fmul p (.meanOf m q))], rfl⟩ _ g1'⟩
  rw [bind_of_ok h3]
  have g2 : ∀ L0 D, Grown D L0 L → Grown _ L0 _ := fun L0 D h => hp (n + 2) (.fmul p (.meanOf m q)) (g1' L0 D h)
  have l5 : (L4.push m (n + 2) (.fmul p (.meanOf m q))).gps.length = n + 3 := by rw [push_gps_length, l4]
  generalize hL5 : L4.push m (n + 2) (.fmul p (.meanOf m q)) = L5 at *
  rcases defines_sum m n (n + 1) (n + 2) L5 with h4 | ⟨e, h4⟩
  swap
  · rw [bind_of_error h4]
    exact .inr ⟨e, _, rfl, mono _ ⟨[(res, .sum n (n + 3)), (n + 3, .rem p q), (n, .sum (n + 1) (n + 2))], rfl⟩ _ g2⟩
  rw [bind_of_ok h4]
  have g3 : ∀ L0 D, Grown D L0 L → Grown _ L0 _ := fun L0 D h => hp n (.sum (n + 1) (n + 2)) (g2 L0 D h)
  have l6 : (L5.push m n (.sum (n + 1) (n + 2))).gps.length = n + 3 := by rw [push_gps_length, l5]
  generalize hL6 : L5.push m n (.sum (n + 1) (n + 2)) = L6 at *
  rw [bind_of_ok (c := aNewGP) (u := L6.gps.length) (L1 := L6.new) rfl, l6]
  have g3' : ∀ L0 D, Grown D L0 L → Grown _ L0 L6.new := fun L0 D h => (g3 L0 D h).same fun _ => rfl
  have l7 : L6.new.gps.length = n + 4 := by simp [AWorld.new, l6]
  generalize hL7 : L6.new = L7 at *
  rcases defines_define m (n + 3) (.rem p q) L7 with h5 | ⟨e, h5⟩
  swap
  · rw [bind_of_error h5]
    exact .inr ⟨e, _, rfl, mono _ ⟨[(res, .sum n (n + 3)), (n + 3, .rem p q)], rfl⟩ _ g3'⟩
  rw [bind_of_ok h5]
  have g4 : ∀ L0 D, Grown D L0 L → Grown _ L0 _ := fun L0 D h => hp (n + 3) (.rem p q) (g3' L0 D h)
  have l8 : (L7.push m (n + 3) (.rem p q)).gps.length = n + 4 := by rw [push_gps_length, l7]
  generalize hL8 : L7.push m (n + 3) (.rem p q) = L8 at *
  rcases defines_sum m res n (n + 3) L8 with h6 | ⟨e, h6⟩
  · exact .inl ⟨_, h6, by rw [push_gps_length, l8], fun L0 D h => hp res (.sum n (n + 3)) (g4 L0 D h)⟩
  · exact .inr ⟨e, _, h6, mono _ ⟨[(res, .sum n (n + 3))], rfl⟩ _ g4⟩

/-- What `p * q` writes in measure `m`. -/
theorem mulLoop_within {res p q : PId} {n : ℕ} {ord : List MId} (hn : ord.Nodup) :
    ∀ {ms done : List MId} {L : AWorld} {D : MId → List (PId × ProcDef)}, done ++ ms = ord → Grown D L0 L →
      (∀ m ∈ ms, D m = []) → (∀ m, D m <:+ if m ∈ ord then mulDefs m res p q (n + 4 * ord.idxOf m) else []) →
      L.gps.length = n + 4 * done.length →
      Within (fun m => if m ∈ ord then mulDefs m res p q (n + 4 * ord.idxOf m) else []) L0
        (AM.after (ms.forM fun m => aMul m res p q) L) := by
  intro ms
  induction ms with
  | nil => intro done L D _ h _ hD _; exact ⟨D, h, hD⟩
  | cons m ms ih =>
    intro done L D hd h h0 hD hl
    have hnn : (done ++ m :: ms).Nodup := hd ▸ hn
    have hm : m ∉ done := fun hm => by
      rw [List.nodup_append] at hnn
      exact hnn.2.2 m hm m (List.mem_cons_self ..) rfl
    have hms : m ∉ ms := by
      rw [List.nodup_append, List.nodup_cons] at hnn
      exact hnn.2.1.1
    have hi : ord.idxOf m = done.length := by
      rw [← hd, List.idxOf_append_of_notMem hm, List.idxOf_cons_self]; rfl
    have hmo : m ∈ ord := by rw [← hd]; simp
    show Within _ _ (AM.after (aMul m res p q >>= fun _ => ms.forM fun m => aMul m res p q) L)
    rcases mul_within m res p q L with ⟨L', h1, hl', hg⟩ | ⟨e, L', h1, hg⟩
    · rw [after_bind_ok h1]
      refine ih (done := done ++ [m]) (by simpa using hd) (hg L0 D h) (fun m' hm' => ?_) (fun m' => ?_) ?_
      · show (if m' = m then _ else _) = _
        rw [if_neg (fun e : m' = m => hms (e ▸ hm'))]
        exact h0 m' (List.mem_cons_of_mem _ hm')
      · show (if m' = m then _ else _) <:+ _
        by_cases e : m' = m
        · rw [if_pos e, e, h0 m (List.mem_cons_self ..), List.append_nil, hl, hi, if_pos hmo]
        · rw [if_neg e]; exact hD m'
      · rw [hl', hl, List.length_append, List.length_singleton]; omega
    · rw [after_bind_error h1]
      obtain ⟨l, hs, hgr⟩ := hg L0 D h
      refine ⟨_, hgr, fun m' => ?_⟩
      show (if m' = m then _ else _) <:+ if m' ∈ ord then mulDefs m' res p q (n + 4 * ord.idxOf m') else []
      by_cases e : m' = m
      · rw [if_pos e, e, h0 m (List.mem_cons_self ..), List.append_nil, if_pos hmo, hi, ← hl]; exact hs
      · rw [if_neg e]; exact hD m'

/-! ### Operations that define nothing -/

/-- The same definitions. -/
def SameCore (L L' : AWorld) : Prop := ∀ m : MId, L'.ms[m]?.map AMeas.core = L.ms[m]?.map AMeas.core

theorem SameCore.mod {m : MId} {f : AMeas → AMeas} (hf : Inert f) (L : AWorld) : SameCore L (L.mod m f) := by
  intro m'
  rw [mod_ms]
  by_cases e : m = m'
  · rw [if_pos e]
    cases L.ms[m']? with
    | none => rfl
    | some a =>
      simp only [Option.map_some, AMeas.core, hf.base, hf.basePs, hf.defs]
  · rw [if_neg e]

theorem SameCore.bind {α β : Type} {c : AM α} {f : α → AM β} (hc : ∀ L, SameCore L (AM.after c L))
    (hf : ∀ v L, SameCore L (AM.after (f v) L)) : ∀ L, SameCore L (AM.after (c >>= f) L) := by
  intro L m
  have h1 := hc L m
  cases h : c L with
  | ok v L' =>
    rw [after_bind_ok h, hf v L' m]
    rw [after_ok h] at h1; exact h1
  | error e L' =>
    rw [after_bind_error h]
    rw [after_error h] at h1; exact h1

theorem Pure.after {α : Type} {c : AM α} (h : Pure c) (L : AWorld) : AM.after c L = L := by
  rcases h L with ⟨v, h⟩ | ⟨e, h⟩
  · exact after_ok h
  · exact after_error h

theorem Pure.sameCore {α : Type} {c : AM α} (h : Pure c) : ∀ L, SameCore L (AM.after c L) := fun L m => by
  rw [h.after]

theorem sameCore_setName (m : MId) (p : PId) (n : String) : ∀ L, SameCore L (AM.after (aSetName m p n) L) := by
  refine SameCore.bind (pure_getMeas m).sameCore fun _ => SameCore.bind
    (fun L => SameCore.mod (unname_inert p) L) fun _ => SameCore.bind (pure_getMeas m).sameCore fun a => ?_
  by_cases h : (a.gpsByName.lookup n).isSome
  · rw [if_pos h]; exact (Pure.throw _).sameCore
  · rw [if_neg h]
    exact fun L => SameCore.mod (m := m) (f := fun a => { a with
      gpsByName := (n, p) :: a.gpsByName
      namesByGp := (p, n) :: a.namesByGp }) ⟨fun _ => rfl, fun _ => rfl, fun _ => rfl⟩ L

theorem sameCore_forM {f : MId → AM Unit} (hf : ∀ m L, SameCore L (AM.after (f m) L)) :
    (ms : List MId) → ∀ L, SameCore L (AM.after (ms.forM f) L)
  | [] => fun _ _ => rfl
  | m :: ms => SameCore.bind (hf m) fun _ => sameCore_forM hf ms

theorem sameCore_nameNew (m : MId) (p : PId) (x : Option String) :
    ∀ L, SameCore L (AM.after (aNameNew m p x) L) := by
  cases x with
  | none => exact fun _ _ => rfl
  | some n =>
    show ∀ L, SameCore L (AM.after (if n = "" then pure () else aSetName m p n) L)
    by_cases h : n = ""
    · rw [if_pos h]; exact fun _ _ => rfl
    · rw [if_neg h]; exact sameCore_setName m p n

theorem pure_getK (m : MId) (i j : PId) : Pure (aGetK m i j) := by
  intro L
  unfold aGetK
  by_cases h : m < L.ms.length
  · rw [if_pos h]
    cases L.kernel m i j with
    | none => exact .inr ⟨_, rfl⟩
    | some k => exact .inl ⟨k, rfl⟩
  · rw [if_neg h]; exact .inr ⟨_, rfl⟩

theorem pure_getM (m : MId) (i : PId) : Pure (aGetM m i) := by
  intro L
  unfold aGetM
  by_cases h : m < L.ms.length
  · rw [if_pos h]
    cases L.mean m i with
    | none => exact .inr ⟨_, rfl⟩
    | some k => exact .inl ⟨k, rfl⟩
  · rw [if_neg h]; exact .inr ⟨_, rfl⟩

/-! ### All operations -/

theorem init_within (mean : MExpr) (kernel : KExpr) (measure : Option MId) (name : Option String) (L : AWorld) :
    ∃ L0 : AWorld, (L0.ms = L.ms ∨ L0.ms = L.ms ++ [({} : AMeas)]) ∧
      Within (fun _ => [(L.gps.length, .indep mean kernel)]) L0 (AM.after (aInit mean kernel measure name) L) := by
  unfold aInit
  rw [after_bind_ok (c := aNewGP) (L1 := L.new) (u := L.gps.length) rfl]
  have main : ∀ (m : MId) (L1 : AWorld), Within (fun _ => [(L.gps.length, .indep mean kernel)]) L1
      (AM.after (do
        aDefine m L.gps.length (.indep mean kernel)
        aNameNew m L.gps.length name
        pure L.gps.length : AM PId) L1) := by
    intro m L1
    rcases defines_define m L.gps.length (.indep mean kernel) L1 with h | ⟨e, h⟩
    · rw [after_bind_ok h, after_bind_pure]
      refine Within.same ?_ (sameCore_nameNew m _ name _)
      refine ⟨_, (Grown.refl L1).push m L.gps.length (.indep mean kernel), fun m' => ?_⟩
      by_cases e : m' = m
      · simp [e]
      · simp [e]
    · rw [after_bind_error h]; exact Within.refl _
  cases measure with
  | some m =>
    refine ⟨L, .inl rfl, ?_⟩
    show Within _ _ (AM.after ((aGetMeas m >>= fun _ => pure m) >>= _) _)
    rw [bind_assoc]
    rcases pure_getMeas m L.new with ⟨a, h⟩ | ⟨e, h⟩
    · rw [after_bind_ok h]
      obtain ⟨D, h1, h2⟩ := main m L.new
      exact ⟨D, h1, h2⟩
    · rw [after_bind_error h]; exact Within.refl _
  | none =>
    cases hd : L.default with
    | some m =>
      refine ⟨L, .inl rfl, ?_⟩
      have : aResolve none L.new = .ok m L.new := by
        show (match L.new.default with | some m => (pure m : AM MId) | none => aNewMeasure) L.new = _
        simp only [AWorld.new, hd]
        rfl
      rw [after_bind_ok this]
      obtain ⟨D, h1, h2⟩ := main m L.new
      exact ⟨D, h1, h2⟩
    | none =>
      have : aResolve none L.new = .ok L.new.ms.length { L.new with ms := L.new.ms ++ [({} : AMeas)] } := by
        show (match L.new.default with | some m => (pure m : AM MId) | none => aNewMeasure) L.new = _
        simp only [AWorld.new, hd]
        rfl
      rw [after_bind_ok this]
      exact ⟨_, .inr rfl, main _ _⟩

/-- A product writes only in the measures that its factors have in common. -/
theorem mul_only (wf : Wf L) (p q : PId) (ord : List MId) :
    Within (fun m => if m ∈ common L.new p [q] then ((Op.mul p q ord).written L.gps.length m).reverse else []) L
      ((Op.mul p q ord).specAfter L) := by
  rw [← after_spec]
  show Within _ _ (AM.after (aGpMul p q ord >>= fun _ => pure ()) L)
  rw [after_bind_pure]
  unfold aGpMul
  rw [after_bind_ok (c := aNewGP) (L1 := L.new) (u := L.gps.length) rfl]
  rcases pure_intersection p [q] L.new with ⟨s, h⟩ | ⟨e, h⟩
  · rw [after_bind_ok h, after_bind_pure]
    obtain ⟨-, -, rfl, -, -⟩ := aIntersection_ok h
    unfold aIterate
    by_cases hp : ord.isPerm (common L.new p [q])
    · rw [if_pos hp]
      have := mulLoop_within (n := L.gps.length + 1) (res := L.gps.length) (p := p) (q := q) (L0 := L)
        ((List.isPerm_iff.1 hp).nodup_iff.2 (common_nodup wf.new p [q])) (done := []) (ms := ord) rfl Grown.new
        (fun _ _ => rfl) (fun _ => List.nil_suffix) (by simp [AWorld.new])
      refine this.mono fun m => ?_
      by_cases hm : m ∈ ord
      · rw [if_pos hm, if_pos ((List.isPerm_iff.1 hp).mem_iff.1 hm)]
        exact List.suffix_rfl
      · rw [if_neg hm]; exact List.nil_suffix
    · rw [if_neg hp]; exact Within.refl _
  · rw [after_bind_error h]; exact Within.refl _

theorem op_within (wf : Wf L) (o : Op) (hc : ∀ m obs, o ≠ .condition m obs) :
    ∃ L0 : AWorld, (L0.ms = L.ms ∨ L0.ms = L.ms ++ [({} : AMeas)]) ∧
      Within (fun m => (o.written L.gps.length m).reverse) L0 (o.specAfter L) := by
  rw [← after_spec]
  cases o with
  | newMeasure => exact ⟨_, .inr rfl, Within.refl _⟩
  | newGP => exact ⟨L, .inl rfl, Within.same (Within.refl L) fun _ => rfl⟩
  | gp mean kernel measure name =>
    show ∃ L0 : AWorld, _ ∧ Within _ _ (AM.after (aInit mean kernel measure name >>= fun _ => pure ()) L)
    rw [after_bind_pure]; exact init_within mean kernel measure name L
  | addFn p f =>
    refine ⟨L, .inl rfl, ?_⟩
    show Within _ _ (AM.after (aUnary (.addFn p f) p >>= fun _ => pure ()) L)
    rw [after_bind_pure]; exact unary_within wf _ p
  | scale p c =>
    refine ⟨L, .inl rfl, ?_⟩
    show Within _ _ (AM.after (aUnary (.scale p c) p >>= fun _ => pure ()) L)
    rw [after_bind_pure]; exact unary_within wf _ p
  | fmul p f =>
    refine ⟨L, .inl rfl, ?_⟩
    show Within _ _ (AM.after (aUnary (.fmul p f) p >>= fun _ => pure ()) L)
    rw [after_bind_pure]; exact unary_within wf _ p
  | pre p t =>
    refine ⟨L, .inl rfl, ?_⟩
    show Within _ _ (AM.after (aUnary (.pre p t) p >>= fun _ => pure ()) L)
    rw [after_bind_pure]; exact unary_within wf _ p
  | diff p d =>
    refine ⟨L, .inl rfl, ?_⟩
    show Within _ _ (AM.after (aUnary (.diff p d) p >>= fun _ => pure ()) L)
    rw [after_bind_pure]; exact unary_within wf _ p
  | add p q ord =>
    refine ⟨L, .inl rfl, ?_⟩
    show Within _ _ (AM.after (aAdd p q ord >>= fun _ => pure ()) L)
    rw [after_bind_pure]
    unfold aAdd
    rw [after_bind_ok (c := aNewGP) (L1 := L.new) (u := L.gps.length) rfl]
    exact group_within wf fun m => defines_sum m _ p q
  | mul p q ord =>
    refine ⟨L, .inl rfl, ?_⟩
    have := mul_only wf p q ord
    rw [← after_spec] at this
    exact this.mono fun m => by
      split
      · exact List.suffix_rfl
      · exact List.nil_suffix
  | cross ps ord =>
    refine ⟨L, .inl rfl, ?_⟩
    show Within _ _ (AM.after (aCross ps ord >>= fun _ => pure ()) L)
    rw [after_bind_pure]
    unfold aCross
    rw [after_bind_ok (c := aNewGP) (L1 := L.new) (u := L.gps.length) rfl]
    cases ps with
    | nil => exact Within.refl _
    | cons p ps => exact group_within wf fun m => defines_define m _ _
  | addGP m mean kernel left right =>
    refine ⟨L, .inl rfl, ?_⟩
    show Within _ _ (AM.after (aAddGP m mean kernel left >>= fun _ => pure ()) L)
    rw [after_bind_pure]
    unfold aAddGP
    rcases pure_getMeas m L with ⟨a, h⟩ | ⟨e, h⟩
    · rw [after_bind_ok h]
      split
      · rw [after_bind_ok (c := aNewGP) (L1 := L.new) (u := L.gps.length) rfl, after_bind_pure]
        have := loop_within (fun m => defines_define m L.gps.length (.custom mean kernel left))
          (ms := [m]) (List.nodup_singleton m) L
        change Within _ _ (AM.after (aDefine m _ _ >>= fun _ => pure ()) _) at this
        rw [after_bind_pure] at this
        exact this
      · exact Within.refl _
    · rw [after_bind_error h]; exact Within.refl _
  | call m p =>
    refine ⟨L, .inl rfl, ?_⟩
    show Within _ _ (AM.after (aCall m p >>= fun _ => pure ()) L)
    rw [after_bind_pure]
    unfold aCall
    rw [after_bind_ok (c := aNewGP) (L1 := L.new) (u := L.gps.length) rfl]
    rcases pure_getMeas m L.new with ⟨a, h⟩ | ⟨e, h⟩
    · rw [after_bind_ok h, after_bind_pure]
      have := loop_within (fun m => defines_define m L.gps.length (.copy p))
        (ms := [m]) (List.nodup_singleton m) L
      change Within _ _ (AM.after (aDefine m _ _ >>= fun _ => pure ()) _) at this
      rw [after_bind_pure] at this
      exact this
    · rw [after_bind_error h]; exact Within.refl _
  | condition m obs => exact absurd rfl (hc m obs)
  | getM m p =>
    refine ⟨L, .inl rfl, Within.same (Within.refl L) ?_⟩
    show SameCore _ (AM.after (aGetM m p >>= fun _ => pure ()) L)
    rw [after_bind_pure]; exact (pure_getM m p).sameCore L
  | getK m p q =>
    refine ⟨L, .inl rfl, Within.same (Within.refl L) ?_⟩
    show SameCore _ (AM.after (aGetK m p q >>= fun _ => pure ()) L)
    rw [after_bind_pure]; exact (pure_getK m p q).sameCore L
  | name m p s => exact ⟨L, .inl rfl, Within.same (Within.refl L) (sameCore_setName m p s L)⟩
  | gpName p s =>
    exact ⟨L, .inl rfl, Within.same (Within.refl L) (SameCore.bind (pure_measuresOf p).sameCore
      (fun ms => sameCore_forM (fun m => sameCore_setName m p s) ms) L)⟩
  | enter m =>
    refine ⟨L, .inl rfl, Within.same (Within.refl L) ?_⟩
    have hget : ∀ L1 : AWorld, SameCore L1 (AM.after (get : AM AWorld) L1) := fun _ _ => rfl
    have hmod : ∀ (x : Option MId) L1, SameCore L1 (AM.after (aModMeas m fun a => { a with prevDefault := x }) L1) :=
      fun x L1 => SameCore.mod (m := m) (f := fun a => { a with prevDefault := x })
        ⟨fun _ => rfl, fun _ => rfl, fun _ => rfl⟩ L1
    exact SameCore.bind (pure_getMeas m).sameCore (fun _ => SameCore.bind hget fun L1 =>
      SameCore.bind (hmod L1.default) fun _ _ _ => rfl) L
  | exit m =>
    refine ⟨L, .inl rfl, Within.same (Within.refl L) ?_⟩
    exact SameCore.bind (pure_getMeas m).sameCore (fun _ L m => rfl) L

end Within

/-! ## The laws of the specification machine -/

section Laws
variable {V : Type} [AddCommGroup V] [Module ℝ V] {I : Interp V}

theorem Inv.members {w : World} {L : AWorld} (h : Inv w L) {m : MId} {a : AMeas} (ha : L.ms[m]? = some a) :
    Stheno.members w m = a.ps := by
  obtain ⟨s, hs, hr, _⟩ := h.rel.get ha
  unfold Stheno.members
  rw [hs]; exact hr.ps

theorem Inv.members_none {w : World} {L : AWorld} (h : Inv w L) {m : MId} (ha : L.ms[m]? = none) :
    Stheno.members w m = [] := by
  have : w.ms[m]? = none := List.getElem?_eq_none (by
    rw [h.rel.len]; exact List.getElem?_eq_none_iff.1 ha)
  unfold Stheno.members
  rw [this]; rfl

/-- The laws of a state, for given lookups. -/
structure Interp.Holds (I : Interp V) (lm : MId → PId → Option MExpr) (lk : MId → PId → PId → Option KExpr)
    (L : AWorld) : Prop where
  defs : ∀ (m : MId) a es res d es', L.ms[m]? = some a → a.defs = es ++ (res, d) :: es' →
    I.DefLaw lm lk m (knownOf a.basePs es') res d
  post : ∀ (m : MId) a u, L.ms[m]? = some a → a.base = some u →
    (∀ p ∈ a.basePs, I.F m p = I.F u.prior p) ∧ I.PostLaw u.prior (I.S m) u.obs

theorem holds_newMeasure {lm : MId → PId → Option MExpr} {lk : MId → PId → PId → Option KExpr} {L L0 : AWorld}
    (h : I.Holds lm lk L) (h0 : L0.ms = L.ms ∨ L0.ms = L.ms ++ [({} : AMeas)]) : I.Holds lm lk L0 := by
  have key : ∀ (m : MId) a, L0.ms[m]? = some a → L.ms[m]? = some a ∨ a = ({} : AMeas) := by
    intro m a ha
    rcases h0 with h0 | h0
    · rw [h0] at ha; exact .inl ha
    · rw [h0, List.getElem?_append] at ha
      split at ha
      · exact .inl ha
      · right
        rw [List.getElem?_singleton] at ha
        split at ha
        · exact (Option.some.inj ha).symm
        · cases ha
  refine ⟨fun m a es res d es' ha hd => ?_, fun m a u ha hu => ?_⟩
  · rcases key m a ha with ha | rfl
    · exact h.defs m a es res d es' ha hd
    · simp at hd
  · rcases key m a ha with ha | rfl
    · exact h.post m a u ha hu
    · cases hu

theorem holds_step {ops before after : List Op} {o : Op} (h : I.Reads ops) (e : ops = before ++ o :: after)
    (ih : I.Holds (meanAt (runOps ops {})) (kernelAt (runOps ops {})) (specOps before {})) :
    I.Holds (meanAt (runOps ops {})) (kernelAt (runOps ops {})) (specOps (before ++ [o]) {}) := by
  have iv := Inv.reach before
  have iv' := Inv.reach (before ++ [o])
  have hs : specOps (before ++ [o]) {} = o.specAfter (specOps before {}) := by
    rw [specOps_append]; rfl
  have hdefs := h.defs before o after e
  have hpost := h.post before
  rw [iv.rel.gps] at hdefs
  rw [hs] at iv' ⊢
  generalize specOps before {} = L at *
  by_cases hc : ∃ m obs, o = .condition m obs
  · obtain ⟨m, obs, rfl⟩ := hc
    have hpost := hpost m obs after e
    cases ha : L.ms[m]? with
    | none => rw [condition_spec_none ha]; exact ih
    | some a =>
      rw [condition_spec ha]
      have key : ∀ (m' : MId) a', (L.cond m a obs).ms[m']? = some a' → L.ms[m']? = some a' ∨
          (m' = L.ms.length ∧ a' = { base := some ⟨m, obs⟩, basePs := a.ps }) := by
        intro m' a' ha'
        change (L.ms ++ [_])[m']? = _ at ha'
        rw [List.getElem?_append] at ha'
        split at ha'
        · exact .inl ha'
        · right
          rw [List.getElem?_singleton] at ha'
          split at ha'
          · exact ⟨by omega, (Option.some.inj ha').symm⟩
          · cases ha'
      have hm : HasMeasure (runOps before {}) m := by
        show m < _
        rw [iv.rel.len]; exact (List.getElem?_eq_some_iff.1 ha).1
      obtain ⟨p1, p2⟩ := hpost hm
      rw [iv.rel.len] at p1 p2
      rw [iv.members ha] at p1
      refine ⟨fun m' a' es res d es' ha' hd => ?_, fun m' a' u ha' hu => ?_⟩
      · rcases key m' a' ha' with ha' | ⟨rfl, rfl⟩
        · exact ih.defs m' a' es res d es' ha' hd
        · simp at hd
      · rcases key m' a' ha' with ha' | ⟨rfl, rfl⟩
        · exact ih.post m' a' u ha' hu
        · cases hu; exact ⟨p1, p2⟩
  · have hc' : ∀ m obs, o ≠ .condition m obs := fun m obs h => hc ⟨m, obs, h⟩
    obtain ⟨L0, h0, D, hg, hsuf⟩ := op_within iv.wf o hc'
    have ih0 := holds_newMeasure ih h0
    have key : ∀ (m : MId) a', (o.specAfter L).ms[m]? = some a' → ∃ a, L0.ms[m]? = some a ∧
        a'.base = a.base ∧ a'.basePs = a.basePs ∧ a'.defs = D m ++ a.defs := by
      intro m a' ha'
      have := hg m
      rw [ha'] at this
      cases ha : L0.ms[m]? with
      | none => rw [ha] at this; cases this
      | some a =>
        rw [ha] at this
        simp only [Option.map_some, AMeas.core, Option.some.injEq, Prod.mk.injEq] at this
        exact ⟨a, rfl, this.1, this.2.1, this.2.2⟩
    refine ⟨fun m a' es res d es' ha' hd => ?_, fun m a' u ha' hu => ?_⟩
    · obtain ⟨a, ha, hb, hbp, hdd⟩ := key m a' ha'
      have hatt : Attached (runOps (before ++ [o]) {}) m res := by
        refine iv'.attached.2 ⟨a', ha', ?_⟩
        simp [AMeas.ps, knownOf, hd]
      rw [hdd] at hd
      rw [hbp]
      rcases List.append_eq_append_iff.1 hd with ⟨c, h1, h2⟩ | ⟨c, h1, h2⟩
      · exact ih0.defs m a c res d es' ha h2
      · cases c with
        | nil =>
          simp only [List.nil_append] at h2
          exact ih0.defs m a [] res d es' ha h2.symm
        | cons x c =>
          simp only [List.cons_append, List.cons.injEq] at h2
          obtain ⟨rfl, rfl⟩ := h2
          obtain ⟨t, ht⟩ := hsuf m
          have hw : o.written L.gps.length m = c.reverse ++ (res, d) :: (t ++ es).reverse := by
            have : (o.written L.gps.length m).reverse = t ++ (es ++ (res, d) :: c) := by rw [← h1]; exact ht.symm
            rw [← List.reverse_reverse (o.written L.gps.length m), this]
            simp
          have := hdefs m _ res d _ hw hatt
          have hk : members (runOps before {}) m ++ c.reverse.map (·.1) = knownOf a.basePs (c ++ a.defs) := by
            have hmem : members (runOps before {}) m = a.ps := by
              cases hL : L.ms[m]? with
              | some b =>
                rw [iv.members hL]
                have : a = b := by
                  rcases h0 with h0 | h0
                  · rw [h0, hL] at ha; exact (Option.some.inj ha).symm
                  · rw [h0, List.getElem?_append_left (List.getElem?_eq_some_iff.1 hL).1, hL] at ha
                    exact (Option.some.inj ha).symm
                rw [this]
              | none =>
                rw [iv.members_none hL]
                rcases h0 with h0 | h0
                · rw [h0, hL] at ha; cases ha
                · rw [h0, List.getElem?_append_right (List.getElem?_eq_none_iff.1 hL),
                    List.getElem?_singleton] at ha
                  split at ha
                  · cases ha; rfl
                  · cases ha
            rw [hmem]
            simp [AMeas.ps, knownOf]
          rw [hk] at this
          exact this
    · obtain ⟨a, ha, hb, hbp, hdd⟩ := key m a' ha'
      rw [hbp]
      exact ih0.post m a u ha (hb ▸ hu)

/-- A reading of a program satisfies the laws of the state that the specification machine reaches. -/
theorem Interp.Reads.laws {ops : List Op} (h : I.Reads ops) : I.Laws (specOps ops {}) := by
  have iv := Inv.reach ops
  have main : ∀ before after, ops = before ++ after →
      I.Holds (meanAt (runOps ops {})) (kernelAt (runOps ops {})) (specOps before {}) := by
    intro before
    induction before using List.reverseRecOn with
    | nil =>
      intro after _
      refine ⟨fun m a es res d es' ha => ?_, fun m a u ha => ?_⟩
      · simp [specOps] at ha
      · simp [specOps] at ha
    | append_singleton before o ih =>
      intro after e
      have e' : ops = before ++ o :: after := by rw [e]; simp
      exact holds_step h e' (ih _ e')
  have hh := main ops [] (by simp)
  have em : meanAt (runOps ops {}) = (specOps ops {}).mean := by funext m i; exact iv.meanAt m i
  have ek : kernelAt (runOps ops {}) = (specOps ops {}).kernel := by funext m i j; exact iv.kernelAt m i j
  rw [em, ek] at hh
  exact ⟨h.ok, h.one_E, h.one_C, hh.defs, hh.post⟩

/-- Means and kernels of a program are expectations and covariances in every reading of the program. -/
theorem Interp.Reads.sound {ops : List Op} (h : I.Reads ops) (n : ℕ) (m : MId) :
    (∀ p a, meanAt (runOps ops {}) m p = some a →
      SM (meanAt (runOps ops {})) (kernelAt (runOps ops {})) n a (expect (I.S m) (I.F m p))) ∧
    ∀ p q k, kernelAt (runOps ops {}) m p q = some k →
      SK (meanAt (runOps ops {})) (kernelAt (runOps ops {})) n k (cov (I.S m) (I.F m p) (I.F m q)) := by
  have iv := Inv.reach ops
  have em : meanAt (runOps ops {}) = (specOps ops {}).mean := by funext m i; exact iv.meanAt m i
  have ek : kernelAt (runOps ops {}) = (specOps ops {}).kernel := by funext m i j; exact iv.kernelAt m i j
  rw [em, ek]
  exact h.laws.sound iv.wf.ms.stable n m

end Laws

end Stheno
