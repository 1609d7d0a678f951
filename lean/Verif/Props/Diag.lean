import Verif.EvalDiag
import Verif.Props.Derive

/-!
# Elementwise evaluation: C28
-/

namespace Stheno

open Matrix

theorem KExpr.Narrow.kadd {a b : KExpr} (ha : a.Narrow) (hb : b.Narrow) : (kadd a b).Narrow := by
  unfold Stheno.kadd; split
  · exact hb
  · exact ha
  · exact ⟨ha, hb⟩

theorem KExpr.Narrow.kmul {a b : KExpr} (ha : a.Narrow) (hb : b.Narrow) : (kmul a b).Narrow := by
  unfold Stheno.kmul; split
  · trivial
  · trivial
  · exact ⟨ha, hb⟩

theorem KExpr.Narrow.kscale {a : KExpr} (c : ℝ) (ha : a.Narrow) : (kscale c a).Narrow := by
  unfold Stheno.kscale; split
  · trivial
  · exact ha

theorem KExpr.Narrow.krev {a : KExpr} (ha : a.Narrow) : (krev a).Narrow := by
  unfold Stheno.krev; split
  · trivial
  · exact ha

theorem KExpr.Narrow.kpre {a : KExpr} (t u : InTr) (ha : a.Narrow) : (kpre t u a).Narrow := by
  unfold Stheno.kpre; split
  · trivial
  · exact ha

theorem KExpr.Narrow.kdiff (d e : Option ℕ) (a : KExpr) : (kdiff d e a).Narrow := by
  unfold Stheno.kdiff; split <;> trivial

/-- Rules that do not use the processes in `C`. -/
def LRule.Narrow (C : PId → Prop) : LRule → Prop
  | .zero => True
  | .const k => k.Narrow
  | .fn f => ∀ j, (f j).Narrow
  | .look p | .lookR p => ¬ C p
  | .add a b => a.Narrow C ∧ b.Narrow C
  | .scale _ a => a.Narrow C
  | .tmul _ _ a | .pre _ _ a => a.Narrow C
  | .diff _ _ _ => True
  | .map2 _ _ _ | .cross _ _ => False

/-- Definitions of single-output processes: not a cross process, and not derived from the processes in `C`. -/
def ProcDef.Narrow (C : PId → Prop) : ProcDef → Prop
  | .indep _ k => k.Narrow
  | .addFn p _ | .fmul p _ | .pre p _ | .scale p _ | .copy p | .diff p _ => ¬ C p
  | .sum p q | .rem p q => ¬ C p ∧ ¬ C q
  | .custom _ k l => k.Narrow ∧ l.Narrow C
  | .cross _ => False

section
variable {C : PId → Prop} {lk : PId → PId → Option KExpr} {m : MId}

theorem runL_narrow (h : ∀ i j k, ¬ C i → ¬ C j → lk i j = some k → k.Narrow) {j : PId} (hj : ¬ C j) :
    ∀ {l : LRule} {k : KExpr}, l.Narrow C → runL lk j l = some k → k.Narrow
  | .zero, k, _, hk => by cases hk; trivial
  | .const k, k', hl, hk => by cases hk; exact hl
  | .fn f, k', hl, hk => by cases hk; exact hl _
  | .look p, k, hl, hk => h _ _ _ hl hj hk
  | .lookR p, k, hl, hk => h _ _ _ hj hl hk
  | .add a b, k, hl, hk => by
    obtain ⟨a', ha, hk⟩ := bind_some hk
    obtain ⟨b', hb, hk⟩ := bind_some hk
    cases hk
    exact (runL_narrow h hj hl.1 ha).kadd (runL_narrow h hj hl.2 hb)
  | .scale c a, k, hl, hk => by
    obtain ⟨a', ha, hk⟩ := bind_some hk
    cases hk
    exact (runL_narrow h hj (l := a) hl ha).kscale c
  | .tmul f g a, k, hl, hk => by
    obtain ⟨a', ha, hk⟩ := bind_some hk
    cases hk
    exact KExpr.Narrow.kmul trivial (runL_narrow h hj (l := a) hl ha)
  | .pre t u a, k, hl, hk => by
    obtain ⟨a', ha, hk⟩ := bind_some hk
    cases hk
    exact (runL_narrow h hj (l := a) hl ha).kpre t u
  | .diff d e a, k, hl, hk => by
    obtain ⟨a', ha, hk⟩ := bind_some hk
    cases hk
    exact .kdiff _ _ _

theorem defLeft_narrow (h : ∀ i j k, ¬ C i → ¬ C j → lk i j = some k → k.Narrow) {j : PId} (hj : ¬ C j) {d : ProcDef}
    (hd : d.Narrow C) {k : KExpr} (hk : defLeft m lk j d = some k) : k.Narrow := by
  cases d with
  | indep mean k => cases hk; trivial
  | addFn p f => exact h _ _ _ hd hj hk
  | sum p q =>
    obtain ⟨a, ha, hk⟩ := bind_some hk
    obtain ⟨b, hb, hk⟩ := bind_some hk
    cases hk
    exact (h _ _ _ hd.1 hj ha).kadd (h _ _ _ hd.2 hj hb)
  | scale p c => obtain ⟨a, ha, hk⟩ := bind_some hk; cases hk; exact (h _ _ _ hd hj ha).kscale c
  | fmul p f => obtain ⟨a, ha, hk⟩ := bind_some hk; cases hk; exact KExpr.Narrow.kmul trivial (h _ _ _ hd hj ha)
  | pre p t => obtain ⟨a, ha, hk⟩ := bind_some hk; cases hk; exact (h _ _ _ hd hj ha).kpre t _
  | diff p e => obtain ⟨a, ha, hk⟩ := bind_some hk; cases hk; exact .kdiff _ _ _
  | cross ps => exact hd.elim
  | copy p => exact h _ _ _ hd hj hk
  | rem p q => cases hk; trivial
  | custom mean k l => exact runL_narrow h hj hd.2 hk

theorem defRight_narrow (h : ∀ i j k, ¬ C i → ¬ C j → lk i j = some k → k.Narrow) {i : PId} (hi : ¬ C i) {d : ProcDef}
    (hd : d.Narrow C) {k : KExpr} (hk : defRight m lk i d = some k) : k.Narrow := by
  cases d with
  | indep mean k => cases hk; trivial
  | rem p q => cases hk; trivial
  | copy p => exact h _ _ _ hi hd hk
  | _ => obtain ⟨a, ha, hk⟩ := bind_some hk; cases hk; exact (defLeft_narrow h hi hd ha).krev

theorem defKernel_narrow (h : ∀ i j k, ¬ C i → ¬ C j → lk i j = some k → k.Narrow) {d : ProcDef}
    (hd : d.Narrow C) {k : KExpr} (hk : defKernel m lk d = some k) : k.Narrow := by
  cases d with
  | indep mean k => cases hk; exact hd
  | addFn p f => exact h _ _ _ hd hd hk
  | sum p q =>
    obtain ⟨a, ha, hk⟩ := bind_some hk
    obtain ⟨b, hb, hk⟩ := bind_some hk
    obtain ⟨c, hc, hk⟩ := bind_some hk
    obtain ⟨e, he, hk⟩ := bind_some hk
    cases hk
    exact (((h _ _ _ hd.1 hd.1 ha).kadd (h _ _ _ hd.2 hd.2 hb)).kadd (h _ _ _ hd.1 hd.2 hc)).kadd
      (h _ _ _ hd.2 hd.1 he)
  | scale p c => obtain ⟨a, ha, hk⟩ := bind_some hk; cases hk; exact (h _ _ _ hd hd ha).kscale _
  | fmul p f => obtain ⟨a, ha, hk⟩ := bind_some hk; cases hk; exact KExpr.Narrow.kmul trivial (h _ _ _ hd hd ha)
  | pre p t => obtain ⟨a, ha, hk⟩ := bind_some hk; cases hk; exact (h _ _ _ hd hd ha).kpre t _
  | diff p e => obtain ⟨a, ha, hk⟩ := bind_some hk; cases hk; exact .kdiff _ _ _
  | cross ps => exact hd.elim
  | copy p => exact h _ _ _ hd hd hk
  | rem p q =>
    obtain ⟨a, ha, hk⟩ := bind_some hk
    obtain ⟨b, hb, hk⟩ := bind_some hk
    obtain ⟨c, hc, hk⟩ := bind_some hk
    obtain ⟨e, he, hk⟩ := bind_some hk
    cases hk
    exact ((h _ _ _ hd.1 hd.1 ha).kmul (h _ _ _ hd.2 hd.2 hb)).kadd ((h _ _ _ hd.1 hd.2 hc).kmul
      (h _ _ _ hd.2 hd.1 he))
  | custom mean k l => cases hk; exact hd.1

theorem lookKDefs_narrow {base : PId → PId → Option KExpr} {basePs : List PId}
    (h : ∀ i j k, ¬ C i → ¬ C j → base i j = some k → k.Narrow) :
    ∀ {es : List (PId × ProcDef)}, (∀ e ∈ es, ¬ C e.1 → e.2.Narrow C) → ∀ i j k, ¬ C i → ¬ C j →
      lookKDefs m base basePs es i j = some k → k.Narrow
  | [], _, i, j, k, hi, hj, hk => by
    unfold lookKDefs at hk
    split at hk
    · exact h i j k hi hj hk
    · cases hk
  | (p, d) :: es, he, i, j, k, hi, hj, hk => by
    have ih := lookKDefs_narrow (basePs := basePs) h (es := es) fun e hm => he e (List.mem_cons_of_mem _ hm)
    have hd := he (p, d) (List.mem_cons_self ..)
    unfold lookKDefs at hk
    split at hk
    · next e =>
      subst e
      split at hk
      · exact defKernel_narrow ih (hd hi) hk
      · split at hk
        · exact defLeft_narrow ih hj (hd hi) hk
        · cases hk
    · split at hk
      · next e =>
        subst e
        split at hk
        · exact defRight_narrow ih hi (hd hj) hk
        · cases hk
      · exact ih i j k hi hj hk

theorem obsKernel_narrow (h : ∀ i j k, ¬ C i → ¬ C j → lk i j = some k → k.Narrow) {obs : Obs} {i j : PId} {k : KExpr}
    (hi : ¬ C i) (hj : ¬ C j) (hk : obsKernel lk none obs i j = some k) : k.Narrow := by
  cases obs with
  | exact p x noise y =>
    unfold obsKernel at hk
    simp only at hk
    split at hk
    · exact h i j k hi hj hk
    · obtain ⟨a, ha, hk⟩ := bind_some hk
      obtain ⟨b, hb, hk⟩ := bind_some hk
      obtain ⟨c, hc, hk⟩ := bind_some hk
      obtain ⟨e, he, hk⟩ := bind_some hk
      cases hk
      exact h i j a hi hj ha
  | pseudo pu p o =>
    unfold obsKernel at hk
    simp only at hk
    obtain ⟨a, ha, hk⟩ := bind_some hk
    obtain ⟨b, hb, hk⟩ := bind_some hk
    obtain ⟨c, hc, hk⟩ := bind_some hk
    obtain ⟨e, he, hk⟩ := bind_some hk
    obtain ⟨f, hf, hk⟩ := bind_some hk
    split at hk
    · obtain ⟨g, hg, hk⟩ := bind_some hk
      cases hk
      exact h i j a hi hj ha
    · cases hk

theorem specKAux_narrow {ms : List AMeas} (h : ∀ (m : MId) (a : AMeas), ms[m]? = some a → ∀ e ∈ a.defs, ¬ C e.1 → e.2.Narrow C) :
    ∀ (n : ℕ) (m : MId) i j k, ¬ C i → ¬ C j → specKAux ms n m i j = some k → k.Narrow
  | 0, m, i, j, k, _, _, hk => by cases hk
  | n + 1, m, i, j, k, hi, hj, hk => by
    unfold specKAux at hk
    split at hk
    · cases hk
    · next a ha =>
      refine lookKDefs_narrow (fun i j k hi hj hk => ?_) (h m a ha) i j k hi hj hk
      split at hk
      · cases hk
      · next u hu => exact obsKernel_narrow (specKAux_narrow h n u.prior) hi hj hk

end

section
variable {C : PId → Prop} {ops : List Op} {m : MId} {p q : PId} {x y : Input}

/-- The processes that are not in `C` are single-output: they are not cross processes and are not derived from cross
processes. -/
def SingleOutput (C : PId → Prop) (ops : List Op) : Prop :=
  ∀ before o after, ops = before ++ o :: after →
    ∀ m, ∀ e ∈ o.written (runOps before {}).gps.length m, ¬ C e.1 → e.2.Narrow C

theorem SingleOutput.kernel (h : SingleOutput C ops) (hp : ¬ C p) (hq : ¬ C q) {k : KExpr}
    (hk : kernelAt (runOps ops {}) m p q = some k) : k.Narrow := by
  rw [(Inv.reach ops).kernelAt] at hk
  exact specKAux_narrow (defs_from (fun e => ¬ C e.1 → e.2.Narrow C) ops h) _ _ _ _ _ hp hq hk

/-- **C28.** For single-output processes of any program, elementwise evaluation of the kernel gives the diagonal of the
kernel matrix, in every measure, at all inputs, whatever was observed. -/
theorem C28_single (h : SingleOutput C ops) (hp : ¬ C p) (hq : ¬ C q) {u : List ℝ} {A : Mat}
    (hu : ElwiseCall (runOps ops {}) m p q x y u) (hA : KernelCall (runOps ops {}) m p q x y A) :
    u.length = A.r ∧ u.length = A.c ∧ ∀ i < u.length, u[i]? = some (A.e i i) := by
  obtain ⟨k, n, hk, hu⟩ := hu
  obtain ⟨k', n', hk', hA⟩ := hA
  rw [hk] at hk'; cases hk'
  have hd := ev_diag (max n n') k (h.kernel hp hq hk) x y u A ((ev_le (Nat.le_max_left ..)).D _ _ _ _ hu)
    ((ev_le (Nat.le_max_right ..)).K _ _ _ _ hA)
  exact ⟨hd.r, hd.c, hd.e⟩

theorem KExpr.Plain.narrow : ∀ {k : KExpr}, k.Plain → k.Narrow := by
  intro k h
  induction k <;> simp_all [KExpr.Plain, KExpr.Narrow]

theorem ProcDef.Total.narrow {G : Dom} {d : ProcDef} {D : Pt → Prop} (hD : ∃ x, D x) (h : d.Total G D) : d.Narrow (Dead G) := by
  have hl : ∀ {p : PId}, (∀ x, D x → G p x) → ¬ Dead G p := fun h => not_not.2 (hD.imp h)
  cases d with
  | indep mean k => exact h.2.narrow
  | addFn p f => exact hl h.1
  | fmul p f => exact hl h.1
  | pre p f =>
    obtain ⟨x, hx⟩ := hD
    obtain ⟨x', _, hx'⟩ := h x hx
    exact not_not.2 ⟨x', hx'⟩
  | sum p q => exact ⟨hl h.1, hl h.2⟩
  | rem p q => exact ⟨hl h.1, hl h.2⟩
  | scale p c => exact hl h
  | copy p => exact hl h
  | diff p d =>
    obtain ⟨x, hx⟩ := hD
    exact not_not.2 ⟨_, (h x hx).2 0⟩
  | _ => exact h.elim

theorem Regular.singleOutput {G : Dom} (h : Regular G ops) : SingleOutput (Dead G) ops :=
  fun before o after e m d hd hc => (h.defs before o after e m d hd (not_not.1 hc)).narrow (not_not.1 hc)

/-- **C28.** For single-output processes of regular programs at numeric inputs, both evaluations return, and one is the
diagonal of the other. -/
theorem C28_regular {G : Dom} (h : Regular G ops) (hp : Attached (runOps ops {}) m p) (hq : Attached (runOps ops {}) m q)
    {xs ys : List Pt} (hx : Rows (G p) xs) (hy : Rows (G q) ys) (hl : xs.length = ys.length) :
    ∃ u A, ElwiseCall (runOps ops {}) m p q (.num xs) (.num ys) u ∧
      KernelCall (runOps ops {}) m p q (.num xs) (.num ys) A ∧ u.length = xs.length ∧ A.r = xs.length ∧
      A.c = xs.length ∧ ∀ i < xs.length, u[i]? = some (A.e i i) := by
  obtain ⟨u, hu, lu⟩ := h.elwise hp hq hx hy hl
  obtain ⟨A, hA, rA, cA⟩ := h.kernel hp hq hx hy
  obtain ⟨_, _, e⟩ := C28_single h.singleOutput hx.alive hy.alive hu hA
  exact ⟨u, A, hu, hA, lu, rA, cA.trans hl.symm, fun i hi => e i (lu ▸ hi)⟩

/-- **C28.** For all processes, also cross processes, of programs that have a reading, elementwise evaluation gives the
diagonal of the kernel matrix, if both have the size of the read values. -/
theorem C28_reading {V : Type} [AddCommGroup V] [Module ℝ V] {I : Interp V} (h : I.Reads ops) {vs ws : List V}
    {u : List ℝ} {A : Mat} (hu : ElwiseCall (runOps ops {}) m p q x y u) (hA : KernelCall (runOps ops {}) m p q x y A)
    (hp : I.F m p x = some vs) (hq : I.F m q y = some ws) (hl : u.length = vs.length) (hl' : u.length = ws.length)
    (hr : A.r = vs.length) (hc : A.c = ws.length) :
    ∀ i < u.length, u[i]? = some (A.e i i) := by
  intro i hi
  rw [C07_elwise h hu hp hq hl hl' i (hl ▸ hi), (C07_reading h hA hp hq).2.2 hr hc i (hl ▸ hi) i (hl' ▸ hi)]

end

/-- In the posterior of the posterior of `study`, for the sum and the shifted sum. -/
example (xs : List Pt) : ∃ u A, ElwiseCall (runOps study {}) 2 3 2 (.num xs) (.num xs) u ∧
    KernelCall (runOps study {}) 2 3 2 (.num xs) (.num xs) A ∧ ∀ i < xs.length, u[i]? = some (A.e i i) := by
  obtain ⟨u, A, hu, hA, _, _, _, e⟩ := C28_regular study_regular (m := 2) (p := 3) (q := 2)
    (attached_iff.2 (by set_option maxRecDepth 4000 in rfl))
    (attached_iff.2 (by set_option maxRecDepth 4000 in rfl)) (rows_off (by decide)) (rows_off (by decide)) (rfl : xs.length = xs.length)
  exact ⟨u, A, hu, hA, e⟩

/-- A program with products and derivatives, for which all processes are single-output. -/
example : SingleOutput (fun _ => False) [.gp .zero affine none none, .diff 0 0, .mul 0 1 [0],
    .condition 0 (.exact 2 (.num [[1], [2]]) (eye 2) [3, 4])] := by
  refine splits (P := fun before o => ∀ m, ∀ e ∈ o.written (runOps before {}).gps.length m, ¬ False →
    e.2.Narrow fun _ => False) ⟨?_, ?_, ?_, ?_, trivial⟩
  all_goals
    intro m e he _
    simp only [Op.written, List.mem_cons, List.not_mem_nil, or_false] at he
  · subst he; trivial
  · subst he; exact id
  · rcases he with rfl | rfl | rfl | rfl | rfl
    · exact id
    · exact id
    · exact ⟨id, id⟩
    · exact ⟨id, id⟩
    · exact ⟨id, id⟩

end Stheno
