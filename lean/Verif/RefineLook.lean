import Verif.Spec
import Mathlib.Data.List.Nodup

/-!
# Refinement: lookups

The relation between heaps of the graph machine and states of the specification machine, and the
proof that lookups return what the specification says, whatever is cached.
-/

namespace Stheno

/-- The left rule the code installs for a definition. -/
noncomputable def ProcDef.lrule (m : MId) : ProcDef → LRule
  | .indep _ _ => .zero
  | .addFn p _ => .look p
  | .sum p q => .add (.look p) (.look q)
  | .scale p c => .scale c (.look p)
  | .fmul p f => .tmul f (.const 1) (.look p)
  | .pre p t => .pre t t.neutral (.look p)
  | .diff p d => .diff (some d) none (.look p)
  | .cross ps => .cross m ps
  | .copy p => .look p
  | .rem _ _ => .zero
  | .custom _ _ l => l

/-- The right rule the code installs for a definition of `self`. -/
def ProcDef.rrule (self : PId) : ProcDef → RRule
  | .indep _ _ => .zero
  | .rem _ _ => .zero
  | .copy p => .look p
  | _ => .rev self

/-- Processes a definition refers to. -/
def ProcDef.refs : ProcDef → List PId
  | .indep _ _ => []
  | .addFn p _ | .scale p _ | .fmul p _ | .pre p _ | .diff p _ | .copy p => [p]
  | .sum p q | .rem p q => [p, q]
  | .cross ps => ps
  | .custom _ _ l => l.refs

noncomputable def leftRulesOf (m : MId) (bp : List PId) :
    List (PId × ProcDef) → List (Nat × List Nat × LRule)
  | [] => []
  | (p, d) :: es => leftRulesOf m bp es ++ [(p, knownOf bp es, d.lrule m)]

def rightRulesOf (bp : List PId) : List (PId × ProcDef) → List (Nat × List Nat × RRule)
  | [] => []
  | (p, d) :: es => rightRulesOf bp es ++ [(p, knownOf bp es, d.rrule p)]

/-- Every definition refers to processes known before it. -/
def Scoped (bp : List PId) : List (PId × ProcDef) → Prop
  | [] => True
  | (_, d) :: es => (∀ q ∈ d.refs, q ∈ knownOf bp es) ∧ Scoped bp es

/-- A measure object represents a measure of the specification machine. -/
structure RelM (L : AWorld) (m : MId) (s : MState) (a : AMeas) : Prop where
  ps : s.ps = a.ps
  pids : s.pids = a.ps
  krules : s.kernels.rules = (a.base.toList.map fun u => (a.basePs, u))
  mrules : s.means.rules = (a.base.toList.map fun u => (a.basePs, u))
  left : s.kernels.leftRules = leftRulesOf m a.basePs a.defs
  right : s.kernels.rightRules = rightRulesOf a.basePs a.defs
  kstore : ∀ i j k, s.kernels.find i j = some k → L.kernel m i j = some k
  mstore : ∀ i k, s.means.find i = some k → L.mean m i = some k
  kdiag : ∀ e ∈ a.defs, (s.kernels.find e.1 e.1).isSome
  mdiag : ∀ e ∈ a.defs, (s.means.find e.1).isSome
  gpsByName : s.gpsByName = a.gpsByName
  namesByGp : s.namesByGp = a.namesByGp
  prevDefault : s.prevDefault = a.prevDefault

/-- A heap represents a state of the specification machine. -/
structure Rel (w : World) (L : AWorld) : Prop where
  len : w.ms.length = L.ms.length
  meas : ∀ m s a, w.ms[m]? = some s → L.ms[m]? = some a → RelM L m s a
  gps : w.gps = L.gps
  default : w.default = L.default

/-- Well-formed states of the specification machine. -/
structure WfM (L : AWorld) (m : MId) (a : AMeas) : Prop where
  base_lt : ∀ u, a.base = some u → u.prior < m
  base_none : a.base = none → a.basePs = []
  base_sub : ∀ u, a.base = some u → ∃ b, L.ms[u.prior]? = some b ∧ ∀ p ∈ a.basePs, p ∈ b.ps
  nodup : a.ps.Nodup
  inScope : Scoped a.basePs a.defs
  def_ok : ∀ e ∈ a.defs, (L.mean m e.1).isSome ∧ (L.kernel m e.1 e.1).isSome

theorem mem_knownOf {bp : List PId} {es : List (PId × ProcDef)} {i : PId} :
    i ∈ knownOf bp es ↔ i ∈ bp ∨ i ∈ es.map (·.1) := by
  simp [knownOf]

theorem knownOf_cons {bp : List PId} {e : PId × ProcDef} {es : List (PId × ProcDef)} :
    knownOf bp (e :: es) = knownOf bp es ++ [e.1] := by
  simp [knownOf]

theorem runL_lrule (m : MId) (lk : PId → PId → Option KExpr) (j : PId) (d : ProcDef) :
    runL lk j (d.lrule m) = defLeft m lk j d := by
  cases d <;> simp [ProcDef.lrule, runL, defLeft]

/-! ## Which rule fires -/

section Builder
variable {m : MId} {bp : List PId}

theorem left_find_none {es : List (PId × ProcDef)} {i j : PId}
    (h : i ∉ es.map (·.1) ∨ j ∉ knownOf bp es) :
    (leftRulesOf m bp es).find? (fun r => i == r.1 && r.2.1.contains j) = none := by
  induction es with
  | nil => rfl
  | cons e es ih =>
    obtain ⟨p, d⟩ := e
    simp only [leftRulesOf, List.find?_append]
    have h1 : i ∉ es.map (·.1) ∨ j ∉ knownOf bp es := by
      rcases h with h | h
      · left; intro hc; exact h (by simp [hc])
      · right; intro hc; exact h (by simp [knownOf_cons, hc])
    have h2 : ¬ (i = p ∧ j ∈ knownOf bp es) := by
      rintro ⟨rfl, hj⟩
      rcases h with h | h
      · exact h (by simp)
      · exact h (by simp [knownOf_cons, hj])
    rw [ih h1]
    simpa using h2

theorem right_find_none {es : List (PId × ProcDef)} {i j : PId}
    (h : j ∉ es.map (·.1) ∨ i ∉ knownOf bp es) :
    (rightRulesOf bp es).find? (fun r => r.2.1.contains i && j == r.1) = none := by
  induction es with
  | nil => rfl
  | cons e es ih =>
    obtain ⟨p, d⟩ := e
    simp only [rightRulesOf, List.find?_append]
    have h1 : j ∉ es.map (·.1) ∨ i ∉ knownOf bp es := by
      rcases h with h | h
      · left; intro hc; exact h (by simp [hc])
      · right; intro hc; exact h (by simp [knownOf_cons, hc])
    have h2 : ¬ (i ∈ knownOf bp es ∧ j = p) := by
      rintro ⟨hj, rfl⟩
      rcases h with h | h
      · exact h (by simp)
      · exact h (by simp [knownOf_cons, hj])
    rw [ih h1]
    simpa using h2

/-- The rule search of a lazy matrix whose rules come from definitions. -/
noncomputable def builderOf (m : MId) (base : Option URule) (bp : List PId)
    (es : List (PId × ProcDef)) (i j : PId) : Option (Build URule LRule RRule) :=
  ({ rules := base.toList.map fun u => (bp, u)
     leftRules := leftRulesOf m bp es
     rightRules := rightRulesOf bp es } : LazyMat KExpr URule LRule RRule).builder i j

theorem builder_eq_builderOf {L : AWorld} {s : MState} {a : AMeas} (h : RelM L m s a) (i j : PId) :
    s.kernels.builder i j = builderOf m a.base a.basePs a.defs i j := by
  simp [builderOf, LazyMat.builder, h.krules, h.left, h.right]

variable {base : Option URule}

theorem univ_find_none {i j : PId} (h : i ∉ bp ∨ j ∉ bp) :
    (base.toList.map fun u => (bp, u)).find? (fun r => r.1.contains i && r.1.contains j) = none := by
  cases base with
  | none => rfl
  | some u =>
    simp only [Option.toList, List.map_cons, List.map_nil, List.find?_cons]
    have : (bp.contains i && bp.contains j) = false := by
      rcases h with h | h <;> simp [h]
    rw [this]; rfl

theorem builder_unknown {es : List (PId × ProcDef)} {i j : PId}
    (h : i ∉ knownOf bp es ∨ j ∉ knownOf bp es) :
    builderOf m base bp es i j = none := by
  have hu : i ∉ bp ∨ j ∉ bp := by
    rcases h with h | h <;> simp [mem_knownOf] at h <;> simp [h.1]
  have hl : i ∉ es.map (·.1) ∨ j ∉ knownOf bp es := by
    rcases h with h | h
    · left; simp only [mem_knownOf, not_or] at h; exact h.2
    · right; exact h
  have hr : j ∉ es.map (·.1) ∨ i ∉ knownOf bp es := by
    rcases h with h | h
    · right; exact h
    · left; simp only [mem_knownOf, not_or] at h; exact h.2
  simp only [builderOf, LazyMat.builder, univ_find_none hu, left_find_none hl, right_find_none hr]

theorem builder_base {u : URule} {es : List (PId × ProcDef)} {i j : PId}
    (hi : i ∈ bp) (hj : j ∈ bp) :
    builderOf m (some u) bp es i j = some (.univ u i j) := by
  simp [builderOf, LazyMat.builder, hi, hj]

theorem builder_left {p : PId} {d : ProcDef} {new es : List (PId × ProcDef)} {j : PId}
    (hn : (knownOf bp (new ++ (p, d) :: es)).Nodup) (hj : j ∈ knownOf bp es) :
    builderOf m base bp (new ++ (p, d) :: es) p j = some (.left (d.lrule m) j) := by
  have hpb : p ∉ bp := by
    intro hc
    simp only [knownOf, List.nodup_append] at hn
    exact hn.2.2 p hc p (by simp) rfl
  have hpe : p ∉ es.map (·.1) := by
    intro hc
    simp only [knownOf, List.nodup_append, List.nodup_reverse, List.map_append, List.map_cons,
      List.nodup_cons] at hn
    exact hn.2.1.2.1.1 hc
  have key : ∀ new : List (PId × ProcDef),
      (leftRulesOf m bp (new ++ (p, d) :: es)).find? (fun r => p == r.1 && r.2.1.contains j) =
        some (p, knownOf bp es, d.lrule m) := by
    intro new
    induction new with
    | nil =>
      simp only [List.nil_append, leftRulesOf, List.find?_append, left_find_none (Or.inl hpe)]
      simp [hj]
    | cons e new ih =>
      obtain ⟨q, d'⟩ := e
      simp only [List.cons_append, leftRulesOf, List.find?_append, ih, Option.some_or]
  simp only [builderOf, LazyMat.builder, univ_find_none (Or.inl hpb), key]

theorem builder_right {p : PId} {d : ProcDef} {new es : List (PId × ProcDef)} {i : PId}
    (hn : (knownOf bp (new ++ (p, d) :: es)).Nodup) (hi : i ∈ knownOf bp es) :
    builderOf m base bp (new ++ (p, d) :: es) i p = some (.right (d.rrule p) i) := by
  have hpb : p ∉ bp := by
    intro hc
    simp only [knownOf, List.nodup_append] at hn
    exact hn.2.2 p hc p (by simp) rfl
  have hpe : p ∉ es.map (·.1) := by
    intro hc
    simp only [knownOf, List.nodup_append, List.nodup_reverse, List.map_append, List.map_cons,
      List.nodup_cons] at hn
    exact hn.2.1.2.1.1 hc
  have hip : i ≠ p := by
    rintro rfl
    rcases mem_knownOf.1 hi with h | h
    · exact hpb h
    · exact hpe h
  have keyL : ∀ new : List (PId × ProcDef), (knownOf bp (new ++ (p, d) :: es)).Nodup →
      (leftRulesOf m bp (new ++ (p, d) :: es)).find? (fun r => i == r.1 && r.2.1.contains p) =
        none := by
    intro new hn
    induction new with
    | nil =>
      simp only [List.nil_append, leftRulesOf, List.find?_append]
      rw [left_find_none (Or.inr (by simp [mem_knownOf, hpb] ; simpa using hpe))]
      simp [hip]
    | cons e new ih =>
      obtain ⟨q, d'⟩ := e
      have hn' : (knownOf bp (new ++ (p, d) :: es)).Nodup ∧
          q ∉ knownOf bp (new ++ (p, d) :: es) := by
        rw [List.cons_append, knownOf_cons, List.nodup_append] at hn
        exact ⟨hn.1, fun hc => hn.2.2 q hc q (by simp) rfl⟩
      have hiq : i ≠ q := by
        rintro rfl
        apply hn'.2
        rcases mem_knownOf.1 hi with h | h
        · simp [mem_knownOf, h]
        · simp only [mem_knownOf, List.map_append, List.map_cons, List.mem_append, List.mem_cons]
          right; right; right; exact h
      simp only [List.cons_append, leftRulesOf, List.find?_append, ih hn'.1]
      simp [hiq]
  have keyR : ∀ new : List (PId × ProcDef),
      (rightRulesOf bp (new ++ (p, d) :: es)).find? (fun r => r.2.1.contains i && p == r.1) =
        some (p, knownOf bp es, d.rrule p) := by
    intro new
    induction new with
    | nil =>
      simp only [List.nil_append, rightRulesOf, List.find?_append, right_find_none (Or.inl hpe)]
      simp [hi]
    | cons e new ih =>
      obtain ⟨q, d'⟩ := e
      simp only [List.cons_append, rightRulesOf, List.find?_append, ih, Option.some_or]
  simp only [builderOf, LazyMat.builder, univ_find_none (Or.inr hpb), keyL new hn, keyR]

end Builder

/-! ## Specification lookups -/

theorem lookKDefs_known {m : MId} {base : PId → PId → Option KExpr} {bp : List PId}
    {es : List (PId × ProcDef)} {i j : PId} {k : KExpr}
    (h : lookKDefs m base bp es i j = some k) : i ∈ knownOf bp es ∧ j ∈ knownOf bp es := by
  induction es with
  | nil =>
    simp only [lookKDefs] at h
    split at h
    · next hh => simpa [knownOf] using hh
    · simp at h
  | cons e es ih =>
    obtain ⟨p, d⟩ := e
    simp only [lookKDefs] at h
    simp only [knownOf_cons, List.mem_append, List.mem_singleton]
    split at h
    · next hi =>
      split at h
      · next hj => exact ⟨.inr hi, .inr hj⟩
      · split at h
        · next hj => exact ⟨.inr hi, .inl hj⟩
        · simp at h
    · split at h
      · next hj =>
        split at h
        · next hi => exact ⟨.inl hi, .inr hj⟩
        · simp at h
      · obtain ⟨h1, h2⟩ := ih h
        exact ⟨.inl h1, .inl h2⟩

theorem lookMDefs_known {m : MId} {base : PId → Option MExpr} {bp : List PId}
    {es : List (PId × ProcDef)} {i : PId} {k : MExpr}
    (h : lookMDefs m base bp es i = some k) : i ∈ knownOf bp es := by
  induction es with
  | nil =>
    simp only [lookMDefs] at h
    split at h
    · next hh => simpa [knownOf] using hh
    · simp at h
  | cons e es ih =>
    obtain ⟨p, d⟩ := e
    simp only [lookMDefs] at h
    simp only [knownOf_cons, List.mem_append, List.mem_singleton]
    split at h
    · next hi => exact .inr hi
    · exact .inl (ih h)

/-- Newer definitions of other processes do not matter. -/
theorem lookKDefs_append {m : MId} {base : PId → PId → Option KExpr} {bp : List PId}
    {new es : List (PId × ProcDef)} {i j : PId}
    (hi : i ∉ new.map (·.1)) (hj : j ∉ new.map (·.1)) :
    lookKDefs m base bp (new ++ es) i j = lookKDefs m base bp es i j := by
  induction new with
  | nil => rfl
  | cons e new ih =>
    obtain ⟨p, d⟩ := e
    simp only [List.map_cons, List.mem_cons, not_or] at hi hj
    simp only [List.cons_append, lookKDefs, hi.1, hj.1, if_false]
    exact ih hi.2 hj.2

theorem lookMDefs_append {m : MId} {base : PId → Option MExpr} {bp : List PId}
    {new es : List (PId × ProcDef)} {i : PId} (hi : i ∉ new.map (·.1)) :
    lookMDefs m base bp (new ++ es) i = lookMDefs m base bp es i := by
  induction new with
  | nil => rfl
  | cons e new ih =>
    obtain ⟨p, d⟩ := e
    simp only [List.map_cons, List.mem_cons, not_or] at hi
    simp only [List.cons_append, lookMDefs, hi.1, if_false]
    exact ih hi.2

/-- The measures of a state are well-formed. -/
def WfMs (L : AWorld) : Prop := ∀ m a, L.ms[m]? = some a → WfM L m a

/-- The fuel of the specification lookups is irrelevant. -/
theorem specKAux_fuel {L : AWorld}
    (wf : ∀ (m : MId) (a : AMeas), L.ms[m]? = some a → ∀ u, a.base = some u → u.prior < m) :
    ∀ n m, m < n → specKAux L.ms n m = specKAux L.ms (m + 1) m := by
  intro n
  induction n using Nat.strong_induction_on with
  | _ n ih =>
    intro m hm
    cases n with
    | zero => omega
    | succ n =>
      funext i j
      simp only [specKAux]
      cases ha : L.ms[m]? with
      | none => rfl
      | some a =>
        simp only
        congr 1
        funext i j
        cases hb : a.base with
        | none => rfl
        | some u =>
          have hlt := wf m a ha u hb
          simp only
          rw [ih n (by omega) u.prior (by omega)]
          by_cases hmn : m = n
          · subst hmn
            rw [ih m (by omega) u.prior (by omega)]
          · rw [ih m (by omega) u.prior (by omega)]

theorem specMAux_fuel {L : AWorld}
    (wf : ∀ (m : MId) (a : AMeas), L.ms[m]? = some a → ∀ u, a.base = some u → u.prior < m) :
    ∀ n m, m < n → specMAux L.ms n m = specMAux L.ms (m + 1) m := by
  intro n
  induction n using Nat.strong_induction_on with
  | _ n ih =>
    intro m hm
    cases n with
    | zero => omega
    | succ n =>
      funext i
      simp only [specMAux]
      cases ha : L.ms[m]? with
      | none => rfl
      | some a =>
        simp only
        congr 1
        funext i
        cases hb : a.base with
        | none => rfl
        | some u =>
          have hlt := wf m a ha u hb
          simp only
          rw [ih n (by omega) u.prior (by omega), ih m (by omega) u.prior (by omega),
            specKAux_fuel wf n u.prior (by omega), specKAux_fuel wf m u.prior (by omega)]

/-- The kernels between base processes. -/
noncomputable def AWorld.baseK (L : AWorld) (a : AMeas) (i j : PId) : Option KExpr :=
  match a.base with
  | none => none
  | some u => obsKernel (L.kernel u.prior) none u.obs i j

/-- The means of base processes. -/
noncomputable def AWorld.baseM (L : AWorld) (a : AMeas) (i : PId) : Option MExpr :=
  match a.base with
  | none => none
  | some u => obsMean (L.mean u.prior) (L.kernel u.prior) none u.obs i

theorem kernel_eq {L : AWorld}
    (wf : ∀ (m : MId) (a : AMeas), L.ms[m]? = some a → ∀ u, a.base = some u → u.prior < m)
    {m : MId} {a : AMeas} (ha : L.ms[m]? = some a) (i j : PId) :
    L.kernel m i j = lookKDefs m (L.baseK a) a.basePs a.defs i j := by
  simp only [AWorld.kernel, specKAux, ha]
  congr 1
  funext i j
  unfold AWorld.baseK
  cases hb : a.base with
  | none => rfl
  | some u =>
    simp only
    congr 1
    exact specKAux_fuel wf m u.prior (wf m a ha u hb)

theorem mean_eq {L : AWorld}
    (wf : ∀ (m : MId) (a : AMeas), L.ms[m]? = some a → ∀ u, a.base = some u → u.prior < m)
    {m : MId} {a : AMeas} (ha : L.ms[m]? = some a) (i : PId) :
    L.mean m i = lookMDefs m (L.baseM a) a.basePs a.defs i := by
  simp only [AWorld.mean, specMAux, ha]
  congr 1
  funext i
  unfold AWorld.baseM
  cases hb : a.base with
  | none => rfl
  | some u =>
    simp only
    congr 1
    · exact specMAux_fuel wf m u.prior (wf m a ha u hb)
    · exact specKAux_fuel wf m u.prior (wf m a ha u hb)

/-! ## Simulation of lookups -/

/-- A program that only fills caches and returns what the specification says, where `none` is a
`RuntimeError`. -/
def Sim {α : Type} (L : AWorld) (c : M α) (r : Option α) : Prop :=
  ∀ w, Rel w L → ∃ w', Rel w' L ∧
    c w = match r with
      | some v => .ok v w'
      | none => .error .runtime w'

theorem Sim.pure {α : Type} {L : AWorld} (v : α) : Sim L (Pure.pure v) (some v) :=
  fun w h => ⟨w, h, rfl⟩

theorem Sim.raise {α : Type} {L : AWorld} : Sim (α := α) L (throw .runtime) none :=
  fun w h => ⟨w, h, rfl⟩

theorem Sim.bind {α β : Type} {L : AWorld} {c : M α} {r : Option α} {f : α → M β}
    {g : α → Option β} (h : Sim L c r) (hf : ∀ v, r = some v → Sim L (f v) (g v)) :
    Sim L (c >>= f) (r >>= g) := by
  intro w hw
  obtain ⟨w1, hw1, h1⟩ := h w hw
  cases r with
  | none =>
    refine ⟨w1, hw1, ?_⟩
    show EStateM.bind c f w = _
    simp only [EStateM.bind, h1]
    rfl
  | some v =>
    obtain ⟨w2, hw2, h2⟩ := hf v rfl w1 hw1
    refine ⟨w2, hw2, ?_⟩
    show EStateM.bind c f w = _
    simp only [EStateM.bind, h1, h2]
    rfl

theorem Sim.runL {L : AWorld} {look : PId → PId → M KExpr} {lk : PId → PId → Option KExpr} {j : PId}
    {l : LRule} (h : ∀ q ∈ l.refs, Sim L (look q j) (lk q j) ∧ Sim L (look j q) (lk j q)) :
    Sim L (Stheno.runL look j l) (Stheno.runL lk j l) := by
  induction l with
  | zero => exact Sim.pure _
  | const k => exact Sim.pure _
  | fn f => exact Sim.pure _
  | map2 f a b iha ihb =>
    simp only [Stheno.runL]
    refine Sim.bind (iha fun q hq => h q (by simp [LRule.refs, hq])) fun v _ => ?_
    exact Sim.bind (ihb fun q hq => h q (by simp [LRule.refs, hq])) fun v _ => Sim.pure _
  | look p => exact (h p (by simp [LRule.refs])).1
  | lookR p => exact (h p (by simp [LRule.refs])).2
  | add a b iha ihb =>
    simp only [Stheno.runL]
    refine Sim.bind (iha fun q hq => h q (by simp [LRule.refs, hq])) fun v _ => ?_
    exact Sim.bind (ihb fun q hq => h q (by simp [LRule.refs, hq])) fun v _ => Sim.pure _
  | scale c a ih =>
    exact Sim.bind (ih fun q hq => h q (by simp [LRule.refs, hq])) fun v _ => Sim.pure _
  | tmul f g a ih =>
    exact Sim.bind (ih fun q hq => h q (by simp [LRule.refs, hq])) fun v _ => Sim.pure _
  | pre t u a ih =>
    exact Sim.bind (ih fun q hq => h q (by simp [LRule.refs, hq])) fun v _ => Sim.pure _
  | diff d e a ih =>
    exact Sim.bind (ih fun q hq => h q (by simp [LRule.refs, hq])) fun v _ => Sim.pure _
  | cross m ps => exact Sim.pure _

theorem Sim.obsKernel {L : AWorld} {look : PId → PId → M KExpr} {lk : PId → PId → Option KExpr}
    (h : ∀ i j, Sim L (look i j) (lk i j)) (o : Obs) (i j : PId) :
    Sim L (Stheno.obsKernel look (throw .runtime) o i j) (Stheno.obsKernel lk none o i j) := by
  cases o with
  | exact p x noise y =>
    simp only [Stheno.obsKernel]
    split
    · exact h _ _
    · refine Sim.bind (h _ _) fun _ _ => Sim.bind (h _ _) fun _ _ => Sim.bind (h _ _) fun _ _ =>
        Sim.bind (h _ _) fun _ _ => Sim.pure _
  | pseudo pu p o =>
    simp only [Stheno.obsKernel]
    refine Sim.bind (h _ _) fun _ _ => Sim.bind (h _ _) fun _ _ => Sim.bind (h _ _) fun _ _ =>
      Sim.bind (h _ _) fun _ _ => Sim.bind (h _ _) fun _ _ => ?_
    split
    · exact Sim.bind (h _ _) fun _ _ => Sim.pure _
    · exact Sim.raise

theorem Sim.obsMean {L : AWorld} {lookM : PId → M MExpr} {lm : PId → Option MExpr}
    {look : PId → PId → M KExpr} {lk : PId → PId → Option KExpr}
    (hm : ∀ i, Sim L (lookM i) (lm i)) (h : ∀ i j, Sim L (look i j) (lk i j)) (o : Obs) (i : PId) :
    Sim L (Stheno.obsMean lookM look (throw .runtime) o i) (Stheno.obsMean lm lk none o i) := by
  cases o with
  | exact p x noise y =>
    simp only [Stheno.obsMean]
    split
    · exact hm _
    · exact Sim.bind (hm _) fun _ _ => Sim.bind (hm _) fun _ _ => Sim.bind (h _ _) fun _ _ =>
        Sim.bind (h _ _) fun _ _ => Sim.pure _
  | pseudo pu p o =>
    simp only [Stheno.obsMean]
    refine Sim.bind (hm _) fun _ _ => Sim.bind (hm _) fun _ _ => Sim.bind (h _ _) fun _ _ =>
      Sim.bind (h _ _) fun _ _ => Sim.bind (h _ _) fun _ _ => ?_
    split
    · exact Sim.bind (h _ _) fun _ _ => Sim.bind (hm _) fun _ _ => Sim.pure _
    · exact Sim.raise

theorem getMeas_ok {w : World} {m : MId} {s : MState} (h : w.ms[m]? = some s) :
    getMeas m w = .ok s w := by
  simp [getMeas, h]

/-- Caching a value that agrees with the specification. -/
theorem Rel.cacheK {w : World} {L : AWorld} (h : Rel w L) {m : MId} {i j : PId} {k : KExpr}
    (hk : L.kernel m i j = some k) :
    Rel { w with ms := w.ms.modify m (fun s => { s with kernels := s.kernels.set i j k }) } L := by
  refine ⟨by simp [h.len], ?_, h.gps, h.default⟩
  intro m' s' a hs ha
  simp only [List.getElem?_modify] at hs
  cases hw : w.ms[m']? with
  | none => simp [hw] at hs
  | some s =>
    have hr := h.meas m' s a hw ha
    simp only [hw, Option.map_eq_map, Option.map_some] at hs
    by_cases hmm : m = m'
    · subst hmm
      simp only [if_true, Option.some.injEq] at hs
      subst hs
      have hf : ∀ i' j', (s.kernels.set i j k).find i' j' =
          if i' = i ∧ j' = j then some k else s.kernels.find i' j' := by
        intro i' j'
        by_cases hij : i' = i ∧ j' = j
        · obtain ⟨rfl, rfl⟩ := hij; simp [LazyMat.set, LazyMat.find]
        · have hb : ((i', j') == (i, j)) = false := by simpa using hij
          simp [LazyMat.set, LazyMat.find, List.lookup, hb, hij]
      refine ⟨hr.ps, hr.pids, hr.krules, hr.mrules, hr.left, hr.right, ?_, hr.mstore, ?_, hr.mdiag,
        hr.gpsByName, hr.namesByGp, hr.prevDefault⟩
      · intro i' j' k' hk'
        simp only [hf] at hk'
        split at hk'
        · next hij => obtain ⟨rfl, rfl⟩ := hij; rw [hk, hk']
        · exact hr.kstore i' j' k' hk'
      · intro e he
        simp only [hf]
        split
        · simp
        · exact hr.kdiag e he
    · simp only [hmm, if_false, Option.some.injEq] at hs
      subst hs
      exact hr

theorem Rel.cacheM {w : World} {L : AWorld} (h : Rel w L) {m : MId} {i : PId} {k : MExpr}
    (hk : L.mean m i = some k) :
    Rel { w with ms := w.ms.modify m (fun s => { s with means := s.means.set i k }) } L := by
  refine ⟨by simp [h.len], ?_, h.gps, h.default⟩
  intro m' s' a hs ha
  simp only [List.getElem?_modify] at hs
  cases hw : w.ms[m']? with
  | none => simp [hw] at hs
  | some s =>
    have hr := h.meas m' s a hw ha
    simp only [hw, Option.map_eq_map, Option.map_some] at hs
    by_cases hmm : m = m'
    · subst hmm
      simp only [if_true, Option.some.injEq] at hs
      subst hs
      have hf : ∀ i', (s.means.set i k).find i' = if i' = i then some k else s.means.find i' := by
        intro i'
        by_cases hij : i' = i
        · subst hij; simp [LazyVec.set, LazyVec.find]
        · have hb : (i' == i) = false := by simpa using hij
          simp [LazyVec.set, LazyVec.find, List.lookup, hb, hij]
      refine ⟨hr.ps, hr.pids, hr.krules, hr.mrules, hr.left, hr.right, hr.kstore, ?_, hr.kdiag, ?_,
        hr.gpsByName, hr.namesByGp, hr.prevDefault⟩
      · intro i' k' hk'
        simp only [hf] at hk'
        split at hk'
        · next hij => subst hij; rw [hk, hk']
        · exact hr.mstore i' k' hk'
      · intro e he
        simp only [hf]
        split
        · simp
        · exact hr.mdiag e he
    · simp only [hmm, if_false, Option.some.injEq] at hs
      subst hs
      exact hr

/-- One step of a kernel lookup: if the rule that fires computes the specified value, the lookup
returns the specified value. -/
theorem Sim.getKAux_succ {L : AWorld} (n : ℕ) {m : MId} {a : AMeas} (ha : L.ms[m]? = some a)
    (i j : PId)
    (hb : (i = j → i ∉ a.defs.map (·.1)) → Sim L
      (runBuild (getKAux n) m (builderOf m a.base a.basePs a.defs i j)) (L.kernel m i j)) :
    Sim L (getKAux (n + 1) m i j) (L.kernel m i j) := by
  intro w hw
  have hlt : m < w.ms.length := by
    rw [hw.len]; exact (List.getElem?_eq_some_iff.1 ha).1
  obtain ⟨s, hs⟩ : ∃ s, w.ms[m]? = some s := ⟨_, List.getElem?_eq_getElem hlt⟩
  have hr := hw.meas m s a hs ha
  simp only [getKAux, Bind.bind, EStateM.bind, getMeas_ok hs]
  cases hf : s.kernels.find i j with
  | some k =>
    refine ⟨w, hw, ?_⟩
    rw [hr.kstore i j k hf]; rfl
  | none =>
    have hnd : i = j → i ∉ a.defs.map (·.1) := by
      rintro rfl hc
      obtain ⟨e, he, rfl⟩ := List.mem_map.1 hc
      have := hr.kdiag e he
      rw [hf] at this; simp at this
    obtain ⟨w1, hw1, h1⟩ := hb hnd w hw
    rw [builder_eq_builderOf hr]
    cases hk : L.kernel m i j with
    | none => rw [hk] at h1; exact ⟨w1, hw1, by simp only [EStateM.bind, h1]⟩
    | some k =>
      rw [hk] at h1
      refine ⟨_, hw1.cacheK hk, ?_⟩
      simp only [EStateM.bind, h1]; rfl

theorem Sim.getMAux_succ {L : AWorld} (n : ℕ) {m : MId} {a : AMeas} (ha : L.ms[m]? = some a)
    (i : PId)
    (hb : i ∉ a.defs.map (·.1) → Sim L
      (runBuildM (getMAux n) (getKAux n) i (if i ∈ a.basePs then a.base else none)) (L.mean m i)) :
    Sim L (getMAux (n + 1) m i) (L.mean m i) := by
  intro w hw
  have hlt : m < w.ms.length := by
    rw [hw.len]; exact (List.getElem?_eq_some_iff.1 ha).1
  obtain ⟨s, hs⟩ : ∃ s, w.ms[m]? = some s := ⟨_, List.getElem?_eq_getElem hlt⟩
  have hr := hw.meas m s a hs ha
  simp only [getMAux, Bind.bind, EStateM.bind, getMeas_ok hs]
  cases hf : s.means.find i with
  | some k =>
    refine ⟨w, hw, ?_⟩
    rw [hr.mstore i k hf]; rfl
  | none =>
    have hnd : i ∉ a.defs.map (·.1) := by
      intro hc
      obtain ⟨e, he, rfl⟩ := List.mem_map.1 hc
      have := hr.mdiag e he
      rw [hf] at this; simp at this
    have hbd : s.means.builder i = if i ∈ a.basePs then a.base else none := by
      simp only [LazyVec.builder, hr.mrules]
      cases a.base <;> by_cases hi : i ∈ a.basePs <;> simp [hi]
    obtain ⟨w1, hw1, h1⟩ := hb hnd w hw
    rw [hbd]
    cases hk : L.mean m i with
    | none => rw [hk] at h1; exact ⟨w1, hw1, by simp only [EStateM.bind, h1]⟩
    | some k =>
      rw [hk] at h1
      refine ⟨_, hw1.cacheM hk, ?_⟩
      simp only [EStateM.bind, h1]; rfl

/-- Fuel that suffices for lookups in measure `m` among the oldest `l` definitions, if measures have
at most `B` definitions. -/
def need (B m l : ℕ) : ℕ := m * (2 * B + 3) + 2 * l + 1

theorem need_lt {B m m' l : ℕ} (h : m' < m) : need B m' B < need B m l := by
  have h1 : (m' + 1) * (2 * B + 3) ≤ m * (2 * B + 3) := Nat.mul_le_mul_right _ h
  have h2 : (m' + 1) * (2 * B + 3) = m' * (2 * B + 3) + (2 * B + 3) := Nat.succ_mul _ _
  simp only [need]
  omega

theorem not_mem_new {bp : List PId} {new es : List (PId × ProcDef)} {q : PId}
    (h : (knownOf bp (new ++ es)).Nodup) (hq : q ∈ knownOf bp es) : q ∉ new.map (·.1) := by
  intro hc
  have : knownOf bp (new ++ es) = knownOf bp es ++ (new.map (·.1)).reverse := by simp [knownOf]
  rw [this, List.nodup_append] at h
  exact h.2.2 q hq q (by simpa using hc) rfl

/-- Definitions refer to what was there before. -/
theorem scoped_refs {bp : List PId} {defs es es' : List (PId × ProcDef)} {r : PId} {d : ProcDef} (h : Scoped bp defs)
    (hd : defs = es ++ (r, d) :: es') : ∀ q ∈ d.refs, q ∈ knownOf bp es' := by
  rw [hd] at h
  clear hd
  induction es with
  | nil => exact h.1
  | cons e es ih => exact ih h.2

theorem Scoped.suffix {bp : List PId} {new es : List (PId × ProcDef)}
    (h : Scoped bp (new ++ es)) : Scoped bp es := by
  induction new with
  | nil => exact h
  | cons e new ih => exact ih h.2

theorem refs_lrule {m : MId} {d : ProcDef} {q : PId} (h : q ∈ (d.lrule m).refs) : q ∈ d.refs := by
  cases d <;> simp_all [ProcDef.lrule, ProcDef.refs, LRule.refs]

/-- Kernel lookups do what the specification says. -/
theorem Sim.getKAux {L : AWorld} (wf : WfMs L) {B : ℕ}
    (hB : ∀ (m : MId) (a : AMeas), L.ms[m]? = some a → a.defs.length ≤ B) :
    ∀ (m n : ℕ), m < L.ms.length → need B m B ≤ n → ∀ i j,
      Sim L (Stheno.getKAux n m i j) (L.kernel m i j) := by
  intro m
  induction m using Nat.strong_induction_on with
  | _ m ihm =>
    intro n hm hn i j
    obtain ⟨a, ha⟩ : ∃ a, L.ms[m]? = some a := ⟨_, List.getElem?_eq_getElem hm⟩
    have wfa := wf m a ha
    have wfb := fun (m : MId) (a : AMeas) (h : L.ms[m]? = some a) => (wf m a h).base_lt
    have hBa := hB m a ha
    by_cases hk : i ∈ a.ps ∧ j ∈ a.ps
    · -- known processes
      have key : ∀ (es new : List (PId × ProcDef)), a.defs = new ++ es →
          ∀ i j, i ∈ knownOf a.basePs es → j ∈ knownOf a.basePs es →
          ∀ n, need B m es.length ≤ n → Sim L (Stheno.getKAux n m i j) (L.kernel m i j) := by
        intro es
        induction es with
        | nil =>
          intro new hnew i j hi hj n hn
          obtain ⟨n, rfl⟩ : ∃ n', n = n' + 1 := ⟨n - 1, by simp only [need] at hn; omega⟩
          have hib : i ∈ a.basePs := by simpa [knownOf] using hi
          have hjb : j ∈ a.basePs := by simpa [knownOf] using hj
          apply Sim.getKAux_succ n ha
          intro _
          cases hbase : a.base with
          | none => rw [wfa.base_none hbase] at hib; simp at hib
          | some u =>
            rw [builder_base hib hjb]
            have hlt := wfa.base_lt u hbase
            have hval : L.kernel m i j = Stheno.obsKernel (L.kernel u.prior) none u.obs i j := by
              have hnd : ∀ q ∈ a.basePs, q ∉ a.defs.map (·.1) := by
                intro q hq hc
                have := wfa.nodup
                simp only [AMeas.ps, knownOf, List.nodup_append] at this
                exact this.2.2 q hq q (by simpa using hc) rfl
              have h0 := lookKDefs_append (m := m) (base := L.baseK a) (bp := a.basePs) (es := [])
                (hnd i hib) (hnd j hjb)
              rw [kernel_eq wfb ha]
              simp only [List.append_nil] at h0
              rw [h0]
              simp [lookKDefs, hib, hjb, AWorld.baseK, hbase]
            rw [hval]
            exact Sim.obsKernel (fun i j => ihm u.prior hlt n (by omega)
              (by have := need_lt (B := B) (l := 0) hlt; simp only [List.length_nil] at hn; omega) i j)
              u.obs i j
        | cons e es ih =>
          obtain ⟨p, d⟩ := e
          intro new hnew i j hi hj n hn
          have ih' := ih (new ++ [(p, d)]) (by simp [hnew])
          have hps := wfa.nodup
          simp only [AMeas.ps, hnew] at hps
          obtain ⟨n, rfl⟩ : ∃ n', n = n' + 1 := ⟨n - 1, by simp only [need] at hn; omega⟩
          have hn1 : need B m es.length + 1 ≤ n := by
            simp only [need, List.length_cons] at hn ⊢; omega
          have hfresh : ∀ q ∈ knownOf a.basePs ((p, d) :: es), q ∉ new.map (·.1) :=
            fun q hq => not_mem_new hps hq
          have hfresh' : ∀ q ∈ knownOf a.basePs es, q ≠ p := by
            intro q hq
            have := not_mem_new (new := new ++ [(p, d)]) (es := es) (by simpa using hps) hq
            simp at this; exact this.2
          have hval : ∀ i j, i ∈ knownOf a.basePs ((p, d) :: es) →
              j ∈ knownOf a.basePs ((p, d) :: es) → L.kernel m i j =
              lookKDefs m (L.baseK a) a.basePs ((p, d) :: es) i j := by
            intro i j hi hj
            rw [kernel_eq wfb ha, hnew]
            exact lookKDefs_append (hfresh i hi) (hfresh j hj)
          have hval' : ∀ i j, i ∈ knownOf a.basePs es → j ∈ knownOf a.basePs es → L.kernel m i j =
              lookKDefs m (L.baseK a) a.basePs es i j := by
            intro i j hi hj
            rw [hval i j (by simp [knownOf_cons, hi]) (by simp [knownOf_cons, hj])]
            simp [lookKDefs, hfresh' i hi, hfresh' j hj]
          have hrefs : ∀ q ∈ d.refs, q ∈ knownOf a.basePs es :=
            (Scoped.suffix (new := new) (es := (p, d) :: es) (by rw [← hnew]; exact wfa.inScope)).1
          -- the covariance of the newest with an older process
          have left : ∀ n, need B m es.length ≤ n → ∀ j, j ∈ knownOf a.basePs es →
              Sim L (Stheno.getKAux (n + 1) m p j)
                (defLeft m (lookKDefs m (L.baseK a) a.basePs es) j d) := by
            intro n hn j hj
            have hv : L.kernel m p j = defLeft m (lookKDefs m (L.baseK a) a.basePs es) j d := by
              rw [hval p j (by simp [knownOf_cons]) (by simp [knownOf_cons, hj])]
              simp [lookKDefs, hfresh' j hj, hj]
            rw [← hv]
            apply Sim.getKAux_succ n ha
            intro _
            rw [hnew, builder_left hps hj, hv, ← runL_lrule]
            apply Sim.runL
            intro q hq
            have hq' := hrefs q (refs_lrule hq)
            rw [← hval' q j hq' hj, ← hval' j q hj hq']
            exact ⟨ih' q j hq' hj n hn, ih' j q hj hq' n hn⟩
          by_cases hip : i = p
          · subst hip
            by_cases hji : j = i
            · subst hji
              apply Sim.getKAux_succ n ha
              intro hc
              exact absurd (by rw [hnew]; simp) (hc rfl)
            · have hj' : j ∈ knownOf a.basePs es := by
                simpa [knownOf_cons, hji] using hj
              have := left n (by omega) j hj'
              rw [hval i j hi hj]
              simpa [lookKDefs, hji, hj'] using this
          · have hi' : i ∈ knownOf a.basePs es := by
              simpa [knownOf_cons, hip] using hi
            by_cases hjp : j = p
            · subst hjp
              have hv : L.kernel m i j = defRight m (lookKDefs m (L.baseK a) a.basePs es) i d := by
                rw [hval i j hi hj]
                simp [lookKDefs, hip, hi']
              apply Sim.getKAux_succ n ha
              intro _
              rw [hnew, builder_right hps hi', hv]
              have hrev : Sim L (runR (Stheno.getKAux n m) i (.rev j))
                  (do Pure.pure (krev (← defLeft m (lookKDefs m (L.baseK a) a.basePs es) i d))) := by
                obtain ⟨n, rfl⟩ : ∃ n', n = n' + 1 := ⟨n - 1, by omega⟩
                exact Sim.bind (left n (by omega) i hi') fun _ _ => Sim.pure _
              cases d with
              | indep mean kernel => exact Sim.pure _
              | rem p q => exact Sim.pure _
              | copy q =>
                have hq' := hrefs q (by simp [ProcDef.refs])
                simp only [defRight]
                rw [← hval' i q hi' hq']
                exact ih' i q hi' hq' n (by omega)
              | _ => exact hrev
            · have hj' : j ∈ knownOf a.basePs es := by
                simpa [knownOf_cons, hjp] using hj
              exact ih' i j hi' hj' (n + 1) (by omega)
      exact key a.defs [] rfl i j hk.1 hk.2 n (by simp only [need] at hn ⊢; omega)
    · -- unknown processes
      obtain ⟨n, rfl⟩ : ∃ n', n = n' + 1 := ⟨n - 1, by simp only [need] at hn; omega⟩
      have hnone : L.kernel m i j = none := by
        rw [kernel_eq wfb ha]
        cases h : lookKDefs m (L.baseK a) a.basePs a.defs i j with
        | none => rfl
        | some k => exact absurd (lookKDefs_known h) hk
      apply Sim.getKAux_succ n ha
      intro _
      rw [builder_unknown (by by_contra hc; simp only [not_or, not_not] at hc; exact hk hc), hnone]
      exact Sim.raise

/-- Mean lookups do what the specification says. -/
theorem Sim.getMAux {L : AWorld} (wf : WfMs L) {B : ℕ}
    (hB : ∀ (m : MId) (a : AMeas), L.ms[m]? = some a → a.defs.length ≤ B) :
    ∀ (m n : ℕ), m < L.ms.length → need B m B ≤ n → ∀ i,
      Sim L (Stheno.getMAux n m i) (L.mean m i) := by
  intro m
  induction m using Nat.strong_induction_on with
  | _ m ihm =>
    intro n hm hn i
    obtain ⟨a, ha⟩ : ∃ a, L.ms[m]? = some a := ⟨_, List.getElem?_eq_getElem hm⟩
    have wfa := wf m a ha
    have wfb := fun (m : MId) (a : AMeas) (h : L.ms[m]? = some a) => (wf m a h).base_lt
    obtain ⟨n, rfl⟩ : ∃ n', n = n' + 1 := ⟨n - 1, by simp only [need] at hn; omega⟩
    apply Sim.getMAux_succ n ha
    intro hnd
    have hv : L.mean m i = lookMDefs m (L.baseM a) a.basePs [] i := by
      rw [mean_eq wfb ha]
      have h0 := lookMDefs_append (m := m) (base := L.baseM a) (bp := a.basePs) (es := []) hnd
      simpa using h0
    rw [hv]
    by_cases hib : i ∈ a.basePs
    · simp only [lookMDefs, hib, if_true, AWorld.baseM]
      cases hbase : a.base with
      | none => exact Sim.raise
      | some u =>
        have hlt := wfa.base_lt u hbase
        have hne : need B u.prior B ≤ n := by have := need_lt (B := B) (l := B) hlt; omega
        exact Sim.obsMean (fun i => ihm u.prior hlt n (by omega) hne i)
          (fun i j => Sim.getKAux wf hB u.prior n (by omega) hne i j) u.obs i
    · simp only [lookMDefs, hib, if_false]
      exact Sim.raise

theorem le_width {w : World} {m : MId} {s : MState} (h : w.ms[m]? = some s) :
    s.ps.length ≤ w.width := by
  have hmem : s ∈ w.ms := List.mem_of_getElem? h
  unfold World.width
  generalize w.ms = l at hmem
  induction l with
  | nil => simp at hmem
  | cons t l ih =>
    simp only [List.map_cons, List.foldr_cons]
    rcases List.mem_cons.1 hmem with rfl | hm
    · exact le_max_left _ _
    · exact le_trans (ih hm) (le_max_right _ _)

theorem Rel.fuel {w : World} {L : AWorld} (h : Rel w L) {m : MId} (hm : m < L.ms.length) :
    need w.width m w.width ≤ w.fuel := by
  have h1 : (m + 1) * (2 * w.width + 3) ≤ w.ms.length * (2 * w.width + 3) :=
    Nat.mul_le_mul_right _ (by rw [h.len]; omega)
  have h2 : (m + 1) * (2 * w.width + 3) = m * (2 * w.width + 3) + (2 * w.width + 3) :=
    Nat.succ_mul _ _
  simp only [need, World.fuel]
  omega

theorem Rel.defs_le {w : World} {L : AWorld} (h : Rel w L) {m : MId} {a : AMeas}
    (ha : L.ms[m]? = some a) : a.defs.length ≤ w.width := by
  have hlt : m < w.ms.length := by rw [h.len]; exact (List.getElem?_eq_some_iff.1 ha).1
  have hs : w.ms[m]? = some w.ms[m] := List.getElem?_eq_getElem hlt
  have := le_width hs
  rw [(h.meas m _ a hs ha).ps] at this
  simp only [AMeas.ps, knownOf, List.length_append, List.length_reverse, List.length_map] at this
  omega

/-- `measure.kernels[i, j]` returns what the specification says, whatever is cached. -/
theorem Sim.getK {L : AWorld} (wf : WfMs L) {m : MId} (hm : m < L.ms.length) (i j : PId) :
    Sim L (Stheno.getK m i j) (L.kernel m i j) := by
  intro w hw
  exact Sim.getKAux wf (fun m a ha => hw.defs_le ha) m w.fuel hm (hw.fuel hm) i j w hw

/-- `measure.means[i]` returns what the specification says, whatever is cached. -/
theorem Sim.getM {L : AWorld} (wf : WfMs L) {m : MId} (hm : m < L.ms.length) (i : PId) :
    Sim L (Stheno.getM m i) (L.mean m i) := by
  intro w hw
  exact Sim.getMAux wf (fun m a ha => hw.defs_le ha) m w.fuel hm (hw.fuel hm) i w hw

end Stheno
