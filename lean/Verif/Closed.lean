import Verif.Program

/-!
# Properties of the kernels and means in the tables

A property of expressions that is closed under the constructions of `Measure` holds for all kernels and means of
single-output processes, in all measures. This is proved once here.
-/

namespace Stheno

/-- Rules that use functions with `F`, kernels with `U` and processes outside `C`. -/
def LRule.Made (C : PId → Prop) (F : Fn → Prop) (U : KExpr → Prop) : LRule → Prop
  | .zero => True
  | .const k => U k
  | .fn f => ∀ j, U (f j)
  | .look p | .lookR p => ¬ C p
  | .add a b => a.Made C F U ∧ b.Made C F U
  | .scale _ a | .pre _ _ a | .diff _ _ a => a.Made C F U
  | .tmul f g a => F f ∧ F g ∧ a.Made C F U
  | .map2 _ _ _ | .cross _ _ => False

/-- Definitions of single-output processes: not a cross process, not derived from the processes in `C`, with functions,
kernels and means as required. -/
def ProcDef.Made (C : PId → Prop) (F : Fn → Prop) (U : KExpr → Prop) (W : MExpr → Prop) : ProcDef → Prop
  | .indep mean k => W mean ∧ U k
  | .addFn p f | .fmul p f => ¬ C p ∧ F f
  | .pre p _ | .scale p _ | .copy p | .diff p _ => ¬ C p
  | .sum p q | .rem p q => ¬ C p ∧ ¬ C q
  | .custom mean k l => W mean ∧ U k ∧ l.Made C F U
  | .cross _ => False

/-- Definitions of multi-output processes: cross processes of single-output processes, and their copies. -/
def ProcDef.Wide (C : PId → Prop) : ProcDef → Prop
  | .cross ps => ps ≠ [] ∧ ∀ p ∈ ps, ¬ C p
  | .copy p => C p
  | _ => False

/-- `P` is closed under what single-output processes do with kernels. -/
structure KClosed (F : Fn → Prop) (P : KExpr → Prop) : Prop where
  zero : P .zero
  add : ∀ {a b}, P a → P b → P (.add a b)
  scale : ∀ {a} c, P a → P (.scale c a)
  rev : ∀ {a}, P a → P (.rev a)
  pre : ∀ {a} t u, P a → P (.pre t u a)
  diff : ∀ {a} d e, P a → P (.diff d e a)
  tmul : ∀ {a f g}, F f → F g → P a → P (.mul (.tprod f g) a)

section
variable {F : Fn → Prop} {P : KExpr → Prop} {a b : KExpr}

theorem KClosed.kadd (h : KClosed F P) (ha : P a) (hb : P b) : P (kadd a b) := by
  unfold Stheno.kadd; split
  · exact hb
  · exact ha
  · exact h.add ha hb

theorem KClosed.kscale (h : KClosed F P) (c : ℝ) (ha : P a) : P (kscale c a) := by
  unfold Stheno.kscale; split
  · exact h.zero
  · exact h.scale c ha

theorem KClosed.krev (h : KClosed F P) (ha : P a) : P (krev a) := by
  unfold Stheno.krev; split
  · exact h.zero
  · exact h.rev ha

theorem KClosed.kpre (h : KClosed F P) (t u : InTr) (ha : P a) : P (kpre t u a) := by
  unfold Stheno.kpre; split
  · exact h.zero
  · exact h.pre t u ha

theorem KClosed.kdiff (h : KClosed F P) (d e : Option ℕ) (ha : P a) : P (kdiff d e a) := by
  unfold Stheno.kdiff; split
  · exact h.zero
  · exact h.diff d e ha

theorem KClosed.ktmul (h : KClosed F P) {f g : Fn} (hf : F f) (hg : F g) (ha : P a) : P (kmul (.tprod f g) a) := by
  unfold Stheno.kmul; split
  · exact h.zero
  · exact h.zero
  · exact h.tmul hf hg ha

end

/-- `P` is for kernels between single-output processes, `Q` for kernels between a single-output process and a
multi-output process. -/
structure Closed (F : Fn → Prop) (U P Q : KExpr → Prop) : Prop where
  one : ∀ c, F (.const c)
  user : ∀ {k}, U k → P k
  p : KClosed F P
  mul : ∀ {a b}, P a → P b → P (.mul a b)
  q : KClosed F Q
  sub : ∀ {k}, P k → Q k
  adk : ∀ {k}, Q (.adk k)

section
variable {C : PId → Prop} {F : Fn → Prop} {U P Q : KExpr → Prop} {W : MExpr → Prop} {lk : PId → PId → Option KExpr} {m : MId}

theorem Closed.kmul {a b : KExpr} (h : Closed F U P Q) (ha : P a) (hb : P b) : P (kmul a b) := by
  unfold Stheno.kmul; split
  · exact h.p.zero
  · exact h.p.zero
  · exact h.mul ha hb

/-- Lookups between a process outside `C` and another one. -/
structure Fine (C : PId → Prop) (P Q : KExpr → Prop) (lk : PId → PId → Option KExpr) : Prop where
  nn : ∀ {i j k}, ¬ C i → ¬ C j → lk i j = some k → P k
  nc : ∀ {i j k}, ¬ C i → C j → lk i j = some k → Q k
  cn : ∀ {i j k}, C i → ¬ C j → lk i j = some k → Q k

/-- Both sides of a row of the table satisfy the same property. -/
structure Side (C : PId → Prop) (F : Fn → Prop) (U R : KExpr → Prop) (lk : PId → PId → Option KExpr) (j : PId) : Prop where
  closed : KClosed F R
  user : ∀ {k}, U k → R k
  left : ∀ {i k}, ¬ C i → lk i j = some k → R k
  right : ∀ {i k}, ¬ C i → lk j i = some k → R k

theorem Fine.side (hc : Closed F U P Q) (h : Fine C P Q lk) {j : PId} (hj : ¬ C j) : Side C F U P lk j :=
  ⟨hc.p, hc.user, fun hi hk => h.nn hi hj hk, fun hi hk => h.nn hj hi hk⟩

theorem Fine.sideC (hc : Closed F U P Q) (h : Fine C P Q lk) {j : PId} (hj : C j) : Side C F U Q lk j :=
  ⟨hc.q, fun hk => hc.sub (hc.user hk), fun hi hk => h.nc hi hj hk, fun hi hk => h.cn hj hi hk⟩

variable {R : KExpr → Prop} {j : PId}

theorem runL_made (h : Side C F U R lk j) : ∀ {l : LRule} {k : KExpr}, l.Made C F U → runL lk j l = some k → R k
  | .zero, k, _, hk => by cases hk; exact h.closed.zero
  | .const k, k', hl, hk => by cases hk; exact h.user hl
  | .fn f, k', hl, hk => by cases hk; exact h.user (hl _)
  | .look p, k, hl, hk => h.left hl hk
  | .lookR p, k, hl, hk => h.right hl hk
  | .add a b, k, hl, hk => by
    obtain ⟨a', ha, hk⟩ := bind_some hk
    obtain ⟨b', hb, hk⟩ := bind_some hk
    cases hk
    exact h.closed.kadd (runL_made h hl.1 ha) (runL_made h hl.2 hb)
  | .scale c a, k, hl, hk => by
    obtain ⟨a', ha, hk⟩ := bind_some hk
    cases hk
    exact h.closed.kscale c (runL_made h (l := a) hl ha)
  | .tmul f g a, k, hl, hk => by
    obtain ⟨a', ha, hk⟩ := bind_some hk
    cases hk
    exact h.closed.ktmul hl.1 hl.2.1 (runL_made h (l := a) hl.2.2 ha)
  | .pre t u a, k, hl, hk => by
    obtain ⟨a', ha, hk⟩ := bind_some hk
    cases hk
    exact h.closed.kpre t u (runL_made h (l := a) hl ha)
  | .diff d e a, k, hl, hk => by
    obtain ⟨a', ha, hk⟩ := bind_some hk
    cases hk
    exact h.closed.kdiff d e (runL_made h (l := a) hl ha)

theorem defLeft_made (one : ∀ c, F (.const c)) (h : Side C F U R lk j) {d : ProcDef} (hd : d.Made C F U W) {k : KExpr}
    (hk : defLeft m lk j d = some k) : R k := by
  cases d with
  | indep mean k => cases hk; exact h.closed.zero
  | addFn p f => exact h.left hd.1 hk
  | sum p q =>
    obtain ⟨a, ha, hk⟩ := bind_some hk
    obtain ⟨b, hb, hk⟩ := bind_some hk
    cases hk
    exact h.closed.kadd (h.left hd.1 ha) (h.left hd.2 hb)
  | scale p c => obtain ⟨a, ha, hk⟩ := bind_some hk; cases hk; exact h.closed.kscale c (h.left hd ha)
  | fmul p f => obtain ⟨a, ha, hk⟩ := bind_some hk; cases hk; exact h.closed.ktmul hd.2 (one _) (h.left hd.1 ha)
  | pre p t => obtain ⟨a, ha, hk⟩ := bind_some hk; cases hk; exact h.closed.kpre _ _ (h.left hd ha)
  | diff p e => obtain ⟨a, ha, hk⟩ := bind_some hk; cases hk; exact h.closed.kdiff _ _ (h.left hd ha)
  | cross ps => exact hd.elim
  | copy p => exact h.left hd hk
  | rem p q => cases hk; exact h.closed.zero
  | custom mean k l => exact runL_made h hd.2.2 hk

theorem defRight_made (one : ∀ c, F (.const c)) (h : Side C F U R lk j) {d : ProcDef} (hd : d.Made C F U W) {k : KExpr}
    (hk : defRight m lk j d = some k) : R k := by
  cases d with
  | indep mean k => cases hk; exact h.closed.zero
  | rem p q => cases hk; exact h.closed.zero
  | copy p => exact h.right hd hk
  | cross ps => exact hd.elim
  | _ => obtain ⟨a, ha, hk⟩ := bind_some hk; cases hk; exact h.closed.krev (defLeft_made one h hd ha)

theorem defKernel_made (hc : Closed F U P Q) (h : Fine C P Q lk) {d : ProcDef} (hd : d.Made C F U W) {k : KExpr}
    (hk : defKernel m lk d = some k) : P k := by
  cases d with
  | indep mean k => cases hk; exact hc.user hd.2
  | addFn p f => exact h.nn hd.1 hd.1 hk
  | sum p q =>
    obtain ⟨a, ha, hk⟩ := bind_some hk
    obtain ⟨b, hb, hk⟩ := bind_some hk
    obtain ⟨c, hc', hk⟩ := bind_some hk
    obtain ⟨e, he, hk⟩ := bind_some hk
    cases hk
    exact hc.p.kadd (hc.p.kadd (hc.p.kadd (h.nn hd.1 hd.1 ha) (h.nn hd.2 hd.2 hb)) (h.nn hd.1 hd.2 hc')) (h.nn hd.2 hd.1 he)
  | scale p c => obtain ⟨a, ha, hk⟩ := bind_some hk; cases hk; exact hc.p.kscale _ (h.nn hd hd ha)
  | fmul p f => obtain ⟨a, ha, hk⟩ := bind_some hk; cases hk; exact hc.p.ktmul hd.2 hd.2 (h.nn hd.1 hd.1 ha)
  | pre p t => obtain ⟨a, ha, hk⟩ := bind_some hk; cases hk; exact hc.p.kpre _ _ (h.nn hd hd ha)
  | diff p e => obtain ⟨a, ha, hk⟩ := bind_some hk; cases hk; exact hc.p.kdiff _ _ (h.nn hd hd ha)
  | cross ps => exact hd.elim
  | copy p => exact h.nn hd hd hk
  | rem p q =>
    obtain ⟨a, ha, hk⟩ := bind_some hk
    obtain ⟨b, hb, hk⟩ := bind_some hk
    obtain ⟨c, hc', hk⟩ := bind_some hk
    obtain ⟨e, he, hk⟩ := bind_some hk
    cases hk
    exact hc.p.kadd (hc.kmul (h.nn hd.1 hd.1 ha) (h.nn hd.2 hd.2 hb)) (hc.kmul (h.nn hd.1 hd.2 hc') (h.nn hd.2 hd.1 he))
  | custom mean k l => cases hk; exact hc.user hd.2.1

/-- Definitions as required: single-output outside `C`, cross processes in `C`. -/
def Shaped (C : PId → Prop) (F : Fn → Prop) (U : KExpr → Prop) (W : MExpr → Prop) (e : PId × ProcDef) : Prop :=
  (¬ C e.1 → e.2.Made C F U W) ∧ (C e.1 → e.2.Wide C)

theorem lookKDefs_fine (hc : Closed F U P Q) {base : PId → PId → Option KExpr} {basePs : List PId} (h : Fine C P Q base) :
    ∀ {es : List (PId × ProcDef)}, (∀ e ∈ es, Shaped C F U W e) → Fine C P Q (lookKDefs m base basePs es)
  | [], _ => by
    have hb : ∀ {i j k}, lookKDefs m base basePs [] i j = some k → base i j = some k := fun {i j k} hk => by
      unfold lookKDefs at hk
      split at hk
      · exact hk
      · cases hk
    exact ⟨fun hi hj hk => h.nn hi hj (hb hk), fun hi hj hk => h.nc hi hj (hb hk), fun hi hj hk => h.cn hi hj (hb hk)⟩
  | (p, d) :: es, he => by
    have ih : Fine C P Q (lookKDefs m base basePs es) :=
      lookKDefs_fine hc h fun e hm => he e (List.mem_cons_of_mem _ hm)
    obtain ⟨hd, hw⟩ := he (p, d) (List.mem_cons_self ..)
    have wl : ∀ {j k}, C p → ¬ C j → defLeft m (lookKDefs m base basePs es) j d = some k → Q k := by
      intro j k hp hj hk
      have hw := hw hp
      cases d with
      | cross ps => cases hk; exact hc.adk
      | copy p => exact ih.cn hw hj hk
      | _ => exact hw.elim
    have wr : ∀ {i k}, C p → ¬ C i → defRight m (lookKDefs m base basePs es) i d = some k → Q k := by
      intro i k hp hi hk
      have hw := hw hp
      cases d with
      | cross ps => obtain ⟨a, ha, hk⟩ := bind_some hk; cases hk; cases ha; exact hc.q.krev hc.adk
      | copy p => exact ih.nc hi hw hk
      | _ => exact hw.elim
    refine ⟨fun {i j k} hi hj hk => ?_, fun {i j k} hi hj hk => ?_, fun {i j k} hi hj hk => ?_⟩
    all_goals
      unfold lookKDefs at hk
      split at hk
      · next e =>
        subst e
        split at hk
        · first
            | exact defKernel_made hc ih (hd hi) hk
            | (next e => subst e; exact absurd hi hj)
            | (next e => subst e; exact absurd hj hi)
        · split at hk
          · first
              | exact defLeft_made hc.one (ih.side hc hj) (hd hi) hk
              | exact defLeft_made hc.one (ih.sideC hc hj) (hd hi) hk
              | exact wl hi hj hk
          · cases hk
      · split at hk
        · next e =>
          subst e
          split at hk
          · first
              | exact defRight_made hc.one (ih.side hc hi) (hd hj) hk
              | exact defRight_made hc.one (ih.sideC hc hi) (hd hj) hk
              | exact wr hj hi hk
          · cases hk
        · first
            | exact ih.nn hi hj hk
            | exact ih.nc hi hj hk
            | exact ih.cn hi hj hk

/-- All kernels of a state, given those between processes of a posterior. -/
theorem specKAux_fine (hc : Closed F U P Q) {ms : List AMeas} {ok : MId → Prop}
    (h : ∀ (m : MId) (a : AMeas), ms[m]? = some a → ∀ e ∈ a.defs, Shaped C F U W e)
    (hb : ∀ (m : MId) (a : AMeas) u lk, ok m → ms[m]? = some a → a.base = some u → (ok u.prior → Fine C P Q lk) →
      Fine C P Q (fun i j => obsKernel lk none u.obs i j)) :
    ∀ (n : ℕ) (m : MId), ok m → Fine C P Q (specKAux ms n m)
  | 0, m, _ => by constructor <;> (intro _ _ _ _ _ hk; cases hk)
  | n + 1, m, hm => by
    have key : ∀ a, ms[m]? = some a → Fine C P Q (lookKDefs m (fun i j => match a.base with
        | none => none
        | some u => obsKernel (specKAux ms n u.prior) none u.obs i j) a.basePs a.defs) := by
      intro a ha
      refine lookKDefs_fine hc ?_ (h m a ha)
      cases hu : a.base with
      | none => exact ⟨fun _ _ hk => by simp at hk, fun _ _ hk => by simp at hk, fun _ _ hk => by simp at hk⟩
      | some u => exact hb m a u _ hm ha hu (specKAux_fine hc h hb n u.prior)
    have step : ∀ {i j k}, specKAux ms (n + 1) m i j = some k → ∃ a, ms[m]? = some a ∧
        lookKDefs m (fun i j => match a.base with
          | none => none
          | some u => obsKernel (specKAux ms n u.prior) none u.obs i j) a.basePs a.defs i j = some k := by
      intro i j k hk
      unfold specKAux at hk
      split at hk
      · cases hk
      · next a ha => exact ⟨a, ha, hk⟩
    exact ⟨fun hi hj hk => by obtain ⟨a, ha, hk⟩ := step hk; exact (key a ha).nn hi hj hk,
      fun hi hj hk => by obtain ⟨a, ha, hk⟩ := step hk; exact (key a ha).nc hi hj hk,
      fun hi hj hk => by obtain ⟨a, ha, hk⟩ := step hk; exact (key a ha).cn hi hj hk⟩

end

/-! ## Means -/

/-- `P` is closed under what single-output processes do with means. -/
structure MClosed (F : Fn → Prop) (W P : MExpr → Prop) : Prop where
  user : ∀ {a}, W a → P a
  fn : ∀ {f}, F f → P (.fn f)
  add : ∀ {a b}, P a → P b → P (.add a b)
  mul : ∀ {a b}, P a → P b → P (.mul a b)
  scale : ∀ {a} c, P a → P (.scale c a)
  pre : ∀ {a} t, P a → P (.pre t a)
  diff : ∀ {a} d, P a → P (.diff d a)
  post : ∀ {a} mz kzi z kzz noise y, P a → P (.post a mz kzi z kzz noise y)
  pseudo : ∀ {a} mz mx kzi kzz kzx kxx o, P a → P (.pseudo a mz mx kzi kzz kzx kxx o)

section
variable {C : PId → Prop} {F : Fn → Prop} {U : KExpr → Prop} {W P : MExpr → Prop} {lm : PId → Option MExpr} {m : MId}

theorem defMean_made (hc : MClosed F W P) (h : ∀ i a, ¬ C i → lm i = some a → P a) {d : ProcDef} (hd : d.Made C F U W)
    {a : MExpr} (ha : defMean m lm d = some a) : P a := by
  cases d with
  | indep mean k => cases ha; exact hc.user hd.1
  | addFn p f => obtain ⟨b, hb, ha⟩ := bind_some ha; cases ha; exact hc.add (h _ _ hd.1 hb) (hc.fn hd.2)
  | sum p q =>
    obtain ⟨b, hb, ha⟩ := bind_some ha
    obtain ⟨b', hb', ha⟩ := bind_some ha
    cases ha
    exact hc.add (h _ _ hd.1 hb) (h _ _ hd.2 hb')
  | scale p c => obtain ⟨b, hb, ha⟩ := bind_some ha; cases ha; exact hc.scale c (h _ _ hd hb)
  | fmul p f => obtain ⟨b, hb, ha⟩ := bind_some ha; cases ha; exact hc.mul (hc.fn hd.2) (h _ _ hd.1 hb)
  | pre p t => obtain ⟨b, hb, ha⟩ := bind_some ha; cases ha; exact hc.pre t (h _ _ hd hb)
  | diff p t => obtain ⟨b, hb, ha⟩ := bind_some ha; cases ha; exact hc.diff t (h _ _ hd hb)
  | cross ps => exact hd.elim
  | copy p => exact h _ _ hd ha
  | rem p q =>
    obtain ⟨b, hb, ha⟩ := bind_some ha
    obtain ⟨b', hb', ha⟩ := bind_some ha
    cases ha
    exact hc.mul (hc.scale _ (h _ _ hd.1 hb)) (h _ _ hd.2 hb')
  | custom mean k l => cases ha; exact hc.user hd.1

theorem lookMDefs_made (hc : MClosed F W P) {base : PId → Option MExpr} {basePs : List PId}
    (h : ∀ i a, ¬ C i → base i = some a → P a) :
    ∀ {es : List (PId × ProcDef)}, (∀ e ∈ es, ¬ C e.1 → e.2.Made C F U W) → ∀ i a, ¬ C i →
      lookMDefs m base basePs es i = some a → P a
  | [], _, i, a, hi, ha => by
    unfold lookMDefs at ha
    split at ha
    · exact h i a hi ha
    · cases ha
  | (p, d) :: es, he, i, a, hi, ha => by
    have ih := lookMDefs_made (basePs := basePs) hc h (es := es) fun e hm => he e (List.mem_cons_of_mem _ hm)
    unfold lookMDefs at ha
    split at ha
    · next e => subst e; exact defMean_made hc ih (he _ (List.mem_cons_self ..) hi) ha
    · exact ih i a hi ha

theorem obsMean_made (hc : MClosed F W P) {lk : PId → PId → Option KExpr} (h : ∀ i a, ¬ C i → lm i = some a → P a) {obs : Obs}
    {i : PId} {a : MExpr} (hi : ¬ C i) (ha : obsMean lm lk none obs i = some a) : P a := by
  cases obs with
  | exact p x noise y =>
    unfold obsMean at ha
    simp only at ha
    split at ha
    · exact h i a hi ha
    · obtain ⟨b, hb, ha⟩ := bind_some ha
      obtain ⟨_, _, ha⟩ := bind_some ha
      obtain ⟨_, _, ha⟩ := bind_some ha
      obtain ⟨_, _, ha⟩ := bind_some ha
      cases ha
      exact hc.post _ _ _ _ _ _ (h i b hi hb)
  | pseudo pu p o =>
    unfold obsMean at ha
    simp only at ha
    obtain ⟨b, hb, ha⟩ := bind_some ha
    obtain ⟨_, _, ha⟩ := bind_some ha
    obtain ⟨_, _, ha⟩ := bind_some ha
    obtain ⟨_, _, ha⟩ := bind_some ha
    obtain ⟨_, _, ha⟩ := bind_some ha
    split at ha
    · obtain ⟨_, _, ha⟩ := bind_some ha
      obtain ⟨_, _, ha⟩ := bind_some ha
      cases ha
      exact hc.pseudo _ _ _ _ _ _ _ (h i b hi hb)
    · cases ha

theorem specMAux_made (hc : MClosed F W P) {ms : List AMeas}
    (h : ∀ (m : MId) (a : AMeas), ms[m]? = some a → ∀ e ∈ a.defs, ¬ C e.1 → e.2.Made C F U W) :
    ∀ (n : ℕ) (m : MId) i a, ¬ C i → specMAux ms n m i = some a → P a
  | 0, m, i, a, _, ha => by cases ha
  | n + 1, m, i, a, hi, ha => by
    unfold specMAux at ha
    split at ha
    · cases ha
    · next b hb =>
      refine lookMDefs_made hc (fun i a hi ha => ?_) (h m b hb) i a hi ha
      split at ha
      · cases ha
      · next u hu => exact obsMean_made hc (specMAux_made hc h n u.prior) hi ha

end

end Stheno
