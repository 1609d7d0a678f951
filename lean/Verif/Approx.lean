import Verif.Props.Groups
import Verif.Everywhere
import Verif.Props.Notation

/-!
# `GP.diff_approx`

Finite differences (`stheno/model/gp.py:225-244`). The library `fdm` supplies the grid, the weights and the step; these are parameters.
-/

namespace Stheno

/-- `df += t`, where `t` is a process (`stheno/model/gp.py:243`). Adding to the number 0 is `Random.__radd__` (`stheno/random.py:18-19`), which
runs `GP.__add__` with a number. `ord` is the order in which Python iterates over the set of measures that a sum of processes is added to. -/
def addTo (t : PId) (ord : List MId) : Option PId → Op
  | none => .addFn t (.const 0)
  | some d => .add d t ord

/-- The loop of `GP.diff_approx` (`stheno/model/gp.py:242-243`) over the pairs of `zip(fdm.grid, fdm.coefs)`. `n` is the number of the next
process. `df` is the process so far; it is `none` while `df` is the number 0. Every round makes `self.shift(-g * fdm.step)`, multiplies it by
`c` (`Random.__rmul__`, `stheno/random.py:21-22`), and adds the result to `df`. `ord r` is the iteration order for the sum `r`. -/
noncomputable def approxLoop (p : PId) (ord : PId → List MId) (step : ℝ) : ℕ → Option PId → List (ℝ × ℝ) → List Op
  | _, _, [] => []
  | n, df, (g, c) :: l =>
    .pre p (.shift (.scalar (-g * step))) :: .scale n c :: addTo (n + 1) (ord (n + 2)) df ::
      approxLoop p ord step (n + 3) (some (n + 2)) l

/-- `GP.diff_approx` (`stheno/model/gp.py:225-244`): the operations that `p.diff_approx(deriv, order)` runs if `n` is the number of the next
process. `l` is `zip(fdm.grid, fdm.coefs)` and `step` is `fdm.step`; `fdm` is not modelled. The division is a multiplication by the inverse
(`Random.__div__`, `stheno/random.py:33-34`). If the grid is empty, no process is made and a number is returned. -/
noncomputable def diffApprox (p : PId) (ord : PId → List MId) (step : ℝ) (deriv : ℕ) (l : List (ℝ × ℝ)) (n : ℕ) : List Op :=
  match l with
  | [] => []
  | e :: l => approxLoop p ord step n none (e :: l) ++ [.scale (n + 3 * l.length + 2) (1 / step ^ deriv)]

/-- Running `os` after `before` raises nothing. -/
def Returns (before os : List Op) : Prop :=
  ∀ os1 o os2, os = os1 ++ o :: os2 → o.raises (runOps (before ++ os1) {}) = none

theorem returns_nil (before : List Op) : Returns before [] := by
  intro os1 o os2 h
  simp at h

theorem returns_cons {before os : List Op} {o : Op} :
    Returns before (o :: os) ↔ o.raises (runOps before {}) = none ∧ Returns (before ++ [o]) os := by
  constructor
  · intro h
    refine ⟨by simpa using h [] o os rfl, fun os1 o' os2 e => ?_⟩
    simpa using h (o :: os1) o' os2 (by rw [e]; rfl)
  · rintro ⟨h1, h2⟩ os1 o' os2 e
    cases os1 with
    | nil => simp at e; rw [← e.1]; simpa using h1
    | cons o1 os1 =>
      simp only [List.cons_append, List.cons.injEq] at e
      obtain ⟨rfl, e⟩ := e
      simpa using h2 os1 o' os2 e

theorem returns_append {before os os' : List Op} : Returns before (os ++ os') ↔ Returns before os ∧ Returns (before ++ os) os' := by
  induction os generalizing before with
  | nil => simp [returns_nil]
  | cons o os ih => simp [returns_cons, ih, and_assoc]

/-! ## Which processes there are -/

theorem after_eq (ops : List Op) (o : Op) : runOps (ops ++ [o]) {} = o.after (runOps ops {}) := by
  rw [runOps_append]; rfl

theorem pushAll_new {L : AWorld} {ms : List MId} {d : ProcDef} : (L.new.pushAll ms L.gps.length d).gps = L.gps ++ [ms] := by
  refine List.ext_getElem? fun i => ?_
  rw [pushAll_gps, AWorld.new, List.getElem?_append, List.getElem?_append]
  by_cases h : i < L.gps.length
  · rw [if_pos h, if_pos h, if_neg (by omega)]
  · rw [if_neg h, if_neg h]
    by_cases hi : L.gps.length = i
    · subst hi; simp
    · rw [if_neg hi, List.getElem?_eq_none (by simp; omega), List.getElem?_eq_none (by simp; omega)]

theorem unary_gps {ops : List Op} {o : Op} {p : PId} (ho : o.unaryOn = some p) (hr : o.raises (runOps ops {}) = none) :
    (runOps (ops ++ [o]) {}).gps = (runOps ops {}).gps ++ [groups (runOps ops {}) p] := by
  have hg := C32_result_unary ops o p ho hr
  have hi := Inv.reach ops
  have hok := hi.ok hr
  have hi' := (hi.after o).1
  obtain ⟨d, _, hd⟩ := unary_spec ho
  rw [hd] at hok
  obtain ⟨v, hv⟩ := forget_ok hok
  obtain ⟨_, ms, hms, e⟩ := aUnary_ok hv
  have key : (o.after (runOps ops {})).gps = (runOps ops {}).gps ++ [ms] := by rw [hi'.rel.gps, e, pushAll_new, hi.rel.gps]
  rw [after_eq, key, ← hg, groups, key]
  simp

theorem add_gps {ops : List Op} {p q : PId} {ord : List MId} (hr : (Op.add p q ord).raises (runOps ops {}) = none) :
    (runOps (ops ++ [.add p q ord]) {}).gps = (runOps ops {}).gps ++ [ord] := by
  have hi := Inv.reach ops
  have hok := hi.ok hr
  have hi' := (hi.after (.add p q ord)).1
  obtain ⟨v, hv⟩ := forget_ok hok
  obtain ⟨_, _, _, e⟩ := aAdd_ok hv
  rw [after_eq, hi'.rel.gps, e, pushAll_new, hi.rel.gps]

theorem unary_attached {ops : List Op} {o : Op} {p : PId} {m : MId} (ho : o.unaryOn = some p) (hr : o.raises (runOps ops {}) = none)
    (hp : Attached (runOps ops {}) m p) : Attached (runOps (ops ++ [o]) {}) m (runOps ops {}).gps.length := by
  rw [(C32_consistent _).1, groups, unary_gps ho hr]
  simpa using ((C32_consistent ops).1 m p).1 hp

theorem add_attached {ops : List Op} {p q : PId} {m : MId} {ord : List MId} (hr : (Op.add p q ord).raises (runOps ops {}) = none)
    (hp : Attached (runOps ops {}) m p) (hq : Attached (runOps ops {}) m q) :
    Attached (runOps (ops ++ [.add p q ord]) {}) m (runOps ops {}).gps.length := by
  rw [(C32_consistent _).1, after_eq]
  refine (C32_result ops p [q] (.add p q ord) (.inl ⟨q, ord, rfl, .inl rfl⟩) hr m).2 ⟨((C32_consistent ops).1 m p).1 hp, ?_⟩
  simpa using ((C32_consistent ops).1 m q).1 hq

/-! ## What is run -/

/-- `d` is the value of `df` after the rounds for the pairs `l`. -/
inductive Summed (ops : List Op) (p : PId) (step : ℝ) : List (ℝ × ℝ) → PId → Prop
  | first {b1 b2 b3 : List Op} {g c : ℝ} {s t d : PId} : Runs ops b1 (.pre p (.shift (.scalar (-g * step)))) s → Runs ops b2 (.scale s c) t →
      Runs ops b3 (.addFn t (.const 0)) d → Summed ops p step [(g, c)] d
  | next {l : List (ℝ × ℝ)} {b1 b2 b3 : List Op} {g c : ℝ} {s t d d' : PId} {ord : List MId} : Summed ops p step l d →
      Runs ops b1 (.pre p (.shift (.scalar (-g * step)))) s → Runs ops b2 (.scale s c) t → Runs ops b3 (.add d t ord) d' →
      Summed ops p step (l ++ [(g, c)]) d'

/-- The result of `diff_approx`. -/
structure Approximates (ops : List Op) (p : PId) (step : ℝ) (deriv : ℕ) (l : List (ℝ × ℝ)) (r : PId) : Prop where
  summed : ∃ d b, Summed ops p step l d ∧ Runs ops b (.scale d (1 / step ^ deriv)) r

variable {ops before after : List Op} {p r : PId} {m : MId} {ord : PId → List MId} {step : ℝ} {deriv : ℕ} {l : List (ℝ × ℝ)}

theorem approxLoop_summed {l done : List (ℝ × ℝ)} {before after : List Op} {df : Option PId} {n : ℕ}
    (e : ops = before ++ approxLoop p ord step n df l ++ after) (hn : n = (runOps before {}).gps.length)
    (hr : Returns before (approxLoop p ord step n df l)) (hp : Attached (runOps before {}) m p)
    (hd : (df = none ∧ done = [] ∧ l ≠ []) ∨ ∃ d, df = some d ∧ d + 1 = n ∧ Summed ops p step done d ∧ Attached (runOps before {}) m d) :
    ∃ d, d + 1 = n + 3 * l.length ∧ Summed ops p step (done ++ l) d ∧
      Attached (runOps (before ++ approxLoop p ord step n df l) {}) m d ∧
      (runOps (before ++ approxLoop p ord step n df l) {}).gps.length = n + 3 * l.length := by
  induction l generalizing done before df n with
  | nil =>
    rcases hd with ⟨_, _, h⟩ | ⟨d, rfl, h1, h2, h3⟩
    · exact absurd rfl h
    · exact ⟨d, by simpa using h1, by simpa using h2, by simpa [approxLoop] using h3, by simp [approxLoop, hn]⟩
  | cons gc l ih =>
    obtain ⟨g, c⟩ := gc
    simp only [approxLoop] at e hr ⊢
    generalize ho3 : addTo (n + 1) (ord (n + 2)) df = o3 at e hr ⊢
    obtain ⟨r1, hr⟩ := returns_cons.1 hr
    obtain ⟨r2, hr⟩ := returns_cons.1 hr
    obtain ⟨r3, hr⟩ := returns_cons.1 hr
    have a1 := unary_attached rfl r1 hp
    have l1 : (runOps (before ++ [.pre p (.shift (.scalar (-g * step)))]) {}).gps.length = n + 1 := by rw [unary_gps rfl r1, hn]; simp
    rw [← hn] at a1
    have a2 := unary_attached rfl r2 a1
    have l2 : (runOps (before ++ [.pre p (.shift (.scalar (-g * step)))] ++ [.scale n c]) {}).gps.length = n + 2 := by
      rw [unary_gps rfl r2, List.length_append, l1]; rfl
    rw [l1] at a2
    have hp' := attached_append [.pre p (.shift (.scalar (-g * step)))] hp
    have hp' := attached_append [.scale n c] hp'
    have R1 : Runs ops before (.pre p (.shift (.scalar (-g * step)))) n := ⟨⟨_, by rw [e]; simp only [List.append_assoc, List.cons_append, List.nil_append]; rfl⟩, hn, m, a1⟩
    have R2 : Runs ops (before ++ [.pre p (.shift (.scalar (-g * step)))]) (.scale n c) (n + 1) :=
      ⟨⟨_, by rw [e]; simp only [List.append_assoc, List.cons_append, List.nil_append]; rfl⟩, l1.symm, m, a2⟩
    obtain ⟨a3, l3, S⟩ : Attached (runOps (before ++ [.pre p (.shift (.scalar (-g * step)))] ++ [.scale n c] ++ [o3]) {}) m (n + 2) ∧
        (runOps (before ++ [.pre p (.shift (.scalar (-g * step)))] ++ [.scale n c] ++ [o3]) {}).gps.length = n + 3 ∧
        Summed ops p step (done ++ [(g, c)]) (n + 2) := by
      rcases hd with ⟨rfl, rfl, _⟩ | ⟨d, rfl, h1, h2, h3⟩
      · simp only [addTo] at ho3
        subst o3
        have a3 := unary_attached rfl r3 a2
        rw [l2] at a3
        exact ⟨a3, by rw [unary_gps rfl r3, List.length_append, l2]; rfl, .first R1 R2 ⟨⟨_, by rw [e]; simp only [List.append_assoc, List.cons_append, List.nil_append]; rfl⟩, l2.symm, m, a3⟩⟩
      · simp only [addTo] at ho3
        subst o3
        have a3 := add_attached r3 (attached_append [.scale n c] (attached_append [.pre p (.shift (.scalar (-g * step)))] h3)) a2
        rw [l2] at a3
        exact ⟨a3, by rw [add_gps r3, List.length_append, l2]; rfl, .next h2 R1 R2 ⟨⟨_, by rw [e]; simp only [List.append_assoc, List.cons_append, List.nil_append]; rfl⟩, l2.symm, m, a3⟩⟩
    obtain ⟨d, hd, hS, ha, hlen⟩ := ih (done := done ++ [(g, c)]) (by rw [e]; simp) l3.symm hr (attached_append [o3] hp')
      (.inr ⟨n + 2, rfl, rfl, S, a3⟩)
    refine ⟨d, by rw [hd]; simp; ring, by simpa using hS, by simpa using ha, ?_⟩
    have : before ++ .pre p (.shift (.scalar (-g * step))) :: .scale n c :: o3 :: approxLoop p ord step (n + 3) (some (n + 2)) l =
      before ++ [.pre p (.shift (.scalar (-g * step)))] ++ [.scale n c] ++ [o3] ++ approxLoop p ord step (n + 3) (some (n + 2)) l := by simp
    rw [this, hlen]
    simp
    ring

/-- If `diff_approx` returns, its result is the process with number `n + 3 k`, if `n` was the number of the next process and `k` is the number
of grid points, and it is in all measures of `p`. -/
theorem diffApprox_runs (e : ops = before ++ diffApprox p ord step deriv l (runOps before {}).gps.length ++ after) (hl : l ≠ [])
    (hr : Returns before (diffApprox p ord step deriv l (runOps before {}).gps.length)) (hp : Attached (runOps before {}) m p)
    (hid : r = (runOps before {}).gps.length + 3 * l.length) :
    Approximates ops p step deriv l r ∧
      Attached (runOps (before ++ diffApprox p ord step deriv l (runOps before {}).gps.length) {}) m r := by
  cases l with
  | nil => exact absurd rfl hl
  | cons c l =>
    rw [diffApprox] at e hr ⊢
    obtain ⟨r1, r2⟩ := returns_append.1 hr
    obtain ⟨r2, _⟩ := returns_cons.1 r2
    obtain ⟨d, hd, hS, ha, hlen⟩ := approxLoop_summed (ops := ops) (done := []) (by rw [e, List.append_assoc, List.append_assoc, List.append_assoc]) rfl r1 hp (.inl ⟨rfl, rfl, by simp⟩)
    have hd' : d = (runOps before {}).gps.length + 3 * l.length + 2 := by simp at hd; omega
    subst hd'
    have a := unary_attached rfl r2 ha
    rw [hlen, ← hid] at a
    refine ⟨⟨_, _, hS, ⟨after, by rw [e]; simp⟩, by rw [hlen, hid], m, a⟩, by rw [← List.append_assoc]; exact a⟩

end Stheno
