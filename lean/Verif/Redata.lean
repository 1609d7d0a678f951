import Verif.MoreNoise
import Verif.Post

/-!
# Other data

Programs that differ only in the values that are observed: kernels are the same, and means are affine in the values.
-/

namespace Stheno

open Matrix

/-! ## Kernels that do not refer to means -/

/-- Kernels that do not refer to means. -/
def KExpr.Fixed : KExpr → Prop
  | .prim _ | .zero | .mok _ _ => True
  | .tprod f g => f.Fixed ∧ g.Fixed
  | .adk k | .scale _ k | .rev k | .pre _ _ k | .diff _ _ k => k.Fixed
  | .add a b | .mul a b => a.Fixed ∧ b.Fixed
  | .post kij kzi kzj _ kzz _ => kij.Fixed ∧ kzi.Fixed ∧ kzj.Fixed ∧ kzz.Fixed
  | .pseudo kij kzi kzj kzz kzx kxx _ => kij.Fixed ∧ kzi.Fixed ∧ kzj.Fixed ∧ kzz.Fixed ∧ kzx.Fixed ∧ kxx.Fixed

theorem KExpr.Plain.isFixed {k : KExpr} (h : k.Plain) : k.Fixed := by
  induction k with
  | prim | zero => trivial
  | tprod f g => exact ⟨h.1.fixed, h.2.fixed⟩
  | add a b ha hb | mul a b ha hb => exact ⟨ha h.1, hb h.2⟩
  | scale c k ih => exact ih h
  | _ => exact h.elim

/-- A change of values only. -/
def Change.Values (φ : Change) : Prop := ∀ N, φ.noise N = N

/-- Evaluators that agree on kernels that do not refer to means. -/
structure AgreeK (φ : Change) (r r' : Ev) : Prop where
  K : ∀ k, k.Fixed → ∀ x y, r'.K (k.renoise φ) x y = r.K k x y
  D : ∀ k, k.Fixed → ∀ x y, r'.D (k.renoise φ) x y = r.D k x y

section
variable {φ : Change} {lm lm' : MId → PId → Option MExpr} {lk : MId → PId → PId → Option KExpr} {r r' : Ev}

theorem AgreeK.stepKz (h : AgreeK φ r r') {kzz : KExpr} (hk : kzz.Fixed) (z : Input) (noise : Mat) :
    Stheno.stepKz r' (kzz.renoise φ) z noise = Stheno.stepKz r kzz z noise := by
  unfold Stheno.stepKz
  rw [h.K _ hk]

theorem AgreeK.ingredients (h : AgreeK φ r r') {kzz kzx kxx : KExpr} (h1 : kzz.Fixed) (h2 : kzx.Fixed) (h3 : kxx.Fixed) (o : PseudoData) :
    stepIngredients r' (kzz.renoise φ) (kzx.renoise φ) (kxx.renoise φ) (o.revalue φ) = stepIngredients r kzz kzx kxx o := by
  have hx : ∀ k, stepKx r' (kxx.renoise φ) (o.revalue φ) k = stepKx r kxx o k := by
    intro k
    unfold stepKx
    rw [h.D _ h3]
    rfl
  unfold stepIngredients
  simp only [h.stepKz h1, h.K _ h2, hx]
  rfl

theorem AgreeK.fn {f : Fn} (hf : f.Fixed) (x : Input) : stepFn lm' r' f x = stepFn lm r f x := by
  cases f with
  | user => cases x <;> rfl
  | const => rfl
  | meanOf => exact hf.elim

theorem AgreeK.diffEntry (h : AgreeK φ r r') {k : KExpr} (hk : k.Fixed) : Stheno.diffEntry r' (k.renoise φ) = Stheno.diffEntry r k := by
  have : Stheno.scalK r' (k.renoise φ) = Stheno.scalK r k := by
    funext x y
    unfold Stheno.scalK
    rw [h.K _ hk]
  funext d e x y
  unfold Stheno.diffEntry
  rw [this]

variable (hφ : φ.Values) (hl : ∀ m p q k, lk m p q = some k → k.Fixed)
include hφ hl

theorem AgreeK.stepKAtom (h : AgreeK φ r r') {k : KExpr} (hk : k.Fixed) (x y : Input) :
    Stheno.stepKAtom lm' (fun m p q => (lk m p q).map (KExpr.renoise φ)) r' (k.renoise φ) x y = Stheno.stepKAtom lm lk r k x y := by
  cases k with
  | prim | zero => cases x <;> cases y <;> rfl
  | mok m ps =>
    cases x <;> cases y <;> try rfl
    · exact h.K (.mok m ps) hk _ _
    · exact h.K (.mok m ps) hk _ _
    · exact h.K (.mok m ps) hk _ _
    · rename_i p x q y
      simp only [KExpr.renoise, Stheno.stepKAtom]
      cases e : lk m p q with
      | none => rfl
      | some k => exact h.K k (hl _ _ _ _ e) x y
  | tprod f g => simp only [KExpr.renoise, Stheno.stepKAtom, AgreeK.fn (lm := lm) (lm' := lm') (r := r) (r' := r') hk.1, AgreeK.fn (lm := lm) (lm' := lm') (r := r) (r' := r') hk.2]
  | diff d e k =>
    cases x <;> cases y <;> try rfl
    simp only [KExpr.renoise, Stheno.stepKAtom]
    unfold diffMat
    rw [h.diffEntry (k := k) hk]
  | pseudo =>
    obtain ⟨h1, h2, h3, h4, h5, h6⟩ := hk
    simp only [KExpr.renoise, Stheno.stepKAtom, h.K _ h1, h.K _ h2, h.K _ h3, h.ingredients h4 h5 h6]
    rfl
  | post =>
    obtain ⟨h1, h2, h3, h4⟩ := hk
    simp only [KExpr.renoise, Stheno.stepKAtom, hφ _, h.K _ h1, h.K _ h2, h.K _ h3, h.stepKz h4]
  | add a b | mul a b => simp only [KExpr.renoise, Stheno.stepKAtom, h.K _ hk.1, h.K _ hk.2]
  | adk k | scale c k | rev k | pre t u k =>
    have hk : k.Fixed := hk
    simp only [KExpr.renoise, Stheno.stepKAtom, h.K _ hk]

theorem AgreeK.stepDAtom (h : AgreeK φ r r') {k : KExpr} (hk : k.Fixed) (x y : Input) :
    Stheno.stepDAtom lm' (fun m p q => (lk m p q).map (KExpr.renoise φ)) r' (k.renoise φ) x y = Stheno.stepDAtom lm lk r k x y := by
  cases k with
  | prim | zero => cases x <;> cases y <;> rfl
  | mok m ps =>
    cases x <;> cases y <;> try rfl
    · exact h.D (.mok m ps) hk _ _
    · rename_i p x q y
      simp only [KExpr.renoise, Stheno.stepDAtom]
      cases e : lk m p q with
      | none => rfl
      | some k => exact h.D k (hl _ _ _ _ e) x y
  | tprod f g => simp only [KExpr.renoise, Stheno.stepDAtom, AgreeK.fn (lm := lm) (lm' := lm') (r := r) (r' := r') hk.1, AgreeK.fn (lm := lm) (lm' := lm') (r := r) (r' := r') hk.2]
  | diff d e k =>
    cases x <;> cases y <;> try rfl
    simp only [KExpr.renoise, Stheno.stepDAtom, h.diffEntry (k := k) hk]
  | pseudo =>
    obtain ⟨h1, h2, h3, h4, h5, h6⟩ := hk
    simp only [KExpr.renoise, Stheno.stepDAtom, h.D _ h1, h.K _ h2, h.K _ h3, h.ingredients h4 h5 h6]
    rfl
  | post =>
    obtain ⟨h1, h2, h3, h4⟩ := hk
    simp only [KExpr.renoise, Stheno.stepDAtom, hφ _, h.D _ h1, h.K _ h2, h.K _ h3, h.stepKz h4]
  | add a b | mul a b => simp only [KExpr.renoise, Stheno.stepDAtom, h.D _ hk.1, h.D _ hk.2]
  | adk k | scale c k | rev k | pre t u k =>
    have hk : k.Fixed := hk
    simp only [KExpr.renoise, Stheno.stepDAtom, h.D _ hk]

/-- **The values do not matter to kernels.** -/
theorem ev_agreeK : ∀ n, AgreeK φ (ev lm lk n) (ev lm' (fun m p q => (lk m p q).map (KExpr.renoise φ)) n)
  | 0 => ⟨fun _ _ _ _ => rfl, fun _ _ _ _ => rfl⟩
  | n + 1 => by
    have ih := ev_agreeK n
    have tK : ∀ k, k.Fixed → ∀ xs ys, tupK (ev lm' (fun m p q => (lk m p q).map (KExpr.renoise φ)) n) (k.renoise φ) xs ys = tupK (ev lm lk n) k xs ys := by
      intro k hk xs ys
      unfold tupK
      simp only [ih.K k hk]
    have tD : ∀ k, k.Fixed → ∀ xs ys, tupD (ev lm' (fun m p q => (lk m p q).map (KExpr.renoise φ)) n) (k.renoise φ) xs ys = tupD (ev lm lk n) k xs ys := by
      intro k hk xs ys
      unfold tupD
      simp only [ih.D k hk]
    refine ⟨fun k hk x y => ?_, fun k hk x y => ?_⟩
    · show stepK _ _ _ _ x y = stepK _ _ _ _ x y
      cases x <;> cases y <;> first | exact tK _ hk _ _ | exact ih.stepKAtom hφ hl hk _ _
    · show stepD _ _ _ _ x y = stepD _ _ _ _ x y
      cases x <;> cases y <;> first | exact tD _ hk _ _ | exact ih.stepDAtom hφ hl hk _ _

end

/-! ## Tables -/

section
variable {a b : KExpr}

theorem kadd_fixed (ha : a.Fixed) (hb : b.Fixed) : (kadd a b).Fixed := by
  cases a <;> cases b <;> first | exact hb | exact ha | exact ⟨ha, hb⟩

theorem kmul_fixed (ha : a.Fixed) (hb : b.Fixed) : (kmul a b).Fixed := by
  cases a <;> cases b <;> first | exact ⟨ha, hb⟩ | trivial

theorem kscale_fixed {c : ℝ} (ha : a.Fixed) : (kscale c a).Fixed := by cases a <;> exact ha

theorem krev_fixed (ha : a.Fixed) : (krev a).Fixed := by cases a <;> exact ha

theorem kpre_fixed {t u : InTr} (ha : a.Fixed) : (kpre t u a).Fixed := by cases a <;> exact ha

theorem kdiff_fixed {d e : Option ℕ} (ha : a.Fixed) : (kdiff d e a).Fixed := by cases a <;> exact ha

end

/-- All entries are kernels that do not refer to means. -/
def FixedTable (lk : PId → PId → Option KExpr) : Prop := ∀ p q k, lk p q = some k → k.Fixed

section
variable {m : MId} {lk : PId → PId → Option KExpr} {d : ProcDef} {k : KExpr}

theorem defKernel_fixed (h : FixedTable lk) (hn : d.Natural) (hl : d.Linear) (e : defKernel m lk d = some k) : k.Fixed := by
  cases d with
  | indep a k => cases e; exact hn.2.isFixed
  | custom => exact hn.elim
  | rem => exact hl.elim
  | cross => cases e; trivial
  | copy p | addFn p => exact h _ _ _ e
  | sum p q =>
    obtain ⟨k1, h1, e⟩ := bind_some e
    obtain ⟨k2, h2, e⟩ := bind_some e
    obtain ⟨k3, h3, e⟩ := bind_some e
    obtain ⟨k4, h4, e⟩ := bind_some e
    cases e
    exact kadd_fixed (kadd_fixed (kadd_fixed (h _ _ _ h1) (h _ _ _ h2)) (h _ _ _ h3)) (h _ _ _ h4)
  | scale p c => obtain ⟨k1, h1, e⟩ := bind_some e; cases e; exact kscale_fixed (h _ _ _ h1)
  | fmul p f => obtain ⟨k1, h1, e⟩ := bind_some e; cases e; exact kmul_fixed ⟨hl, hl⟩ (h _ _ _ h1)
  | pre p t => obtain ⟨k1, h1, e⟩ := bind_some e; cases e; exact kpre_fixed (h _ _ _ h1)
  | diff p t => obtain ⟨k1, h1, e⟩ := bind_some e; cases e; exact kdiff_fixed (h _ _ _ h1)

theorem defLeft_fixed {j : PId} (h : FixedTable lk) (hn : d.Natural) (hl : d.Linear) (e : defLeft m lk j d = some k) : k.Fixed := by
  cases d with
  | indep a k => cases e; trivial
  | custom => exact hn.elim
  | rem => exact hl.elim
  | cross => cases e; trivial
  | copy p | addFn p => exact h _ _ _ e
  | sum p q =>
    obtain ⟨k1, h1, e⟩ := bind_some e
    obtain ⟨k2, h2, e⟩ := bind_some e
    cases e
    exact kadd_fixed (h _ _ _ h1) (h _ _ _ h2)
  | scale p c => obtain ⟨k1, h1, e⟩ := bind_some e; cases e; exact kscale_fixed (h _ _ _ h1)
  | fmul p f => obtain ⟨k1, h1, e⟩ := bind_some e; cases e; exact kmul_fixed ⟨hl, trivial⟩ (h _ _ _ h1)
  | pre p t => obtain ⟨k1, h1, e⟩ := bind_some e; cases e; exact kpre_fixed (h _ _ _ h1)
  | diff p t => obtain ⟨k1, h1, e⟩ := bind_some e; cases e; exact kdiff_fixed (h _ _ _ h1)

theorem defRight_fixed {i : PId} (h : FixedTable lk) (hn : d.Natural) (hl : d.Linear) (e : defRight m lk i d = some k) : k.Fixed := by
  have key : ∀ e : (do pure (krev (← defLeft m lk i d)) : Option KExpr) = some k, k.Fixed := by
    intro e
    obtain ⟨k1, h1, e⟩ := bind_some e
    cases e
    exact krev_fixed (defLeft_fixed h hn hl h1)
  cases d with
  | indep => cases e; trivial
  | rem => exact hl.elim
  | copy p => exact h _ _ _ e
  | _ => exact key e

theorem lookKDefs_fixed {base : PId → PId → Option KExpr} {basePs : List PId} (h : FixedTable base) : ∀ {es : List (PId × ProcDef)},
    (∀ e ∈ es, e.2.Natural ∧ e.2.Linear) → FixedTable (lookKDefs m base basePs es)
  | [], _ => by
    intro i j k e
    unfold lookKDefs at e
    split at e
    · exact h _ _ _ e
    · cases e
  | (p, d) :: es, hd => by
    have ih := lookKDefs_fixed (basePs := basePs) h (es := es) fun e he => hd e (List.mem_cons_of_mem _ he)
    obtain ⟨h1, h2⟩ := hd _ List.mem_cons_self
    intro i j k e
    unfold lookKDefs at e
    split_ifs at e
    · exact defKernel_fixed ih h1 h2 e
    · exact defLeft_fixed ih h1 h2 e
    · exact defRight_fixed ih h1 h2 e
    · exact ih _ _ _ e

theorem obsKernel_fixed {o : Obs} (h : FixedTable lk) : FixedTable (obsKernel lk none o) := by
  intro i j k e
  cases o with
  | exact p x noise y =>
    simp only [obsKernel] at e
    split at e
    · exact h _ _ _ e
    · obtain ⟨k1, h1, e⟩ := bind_some e
      obtain ⟨k2, h2, e⟩ := bind_some e
      obtain ⟨k3, h3, e⟩ := bind_some e
      obtain ⟨k4, h4, e⟩ := bind_some e
      cases e
      exact ⟨h _ _ _ h1, h _ _ _ h2, h _ _ _ h3, h _ _ _ h4⟩
  | pseudo pu p o =>
    simp only [obsKernel] at e
    obtain ⟨k1, h1, e⟩ := bind_some e
    obtain ⟨k2, h2, e⟩ := bind_some e
    obtain ⟨k3, h3, e⟩ := bind_some e
    obtain ⟨k4, h4, e⟩ := bind_some e
    obtain ⟨k5, h5, e⟩ := bind_some e
    split at e
    · obtain ⟨k6, h6, e⟩ := bind_some e
      cases e
      exact ⟨h _ _ _ h1, h _ _ _ h2, h _ _ _ h3, h _ _ _ h5, h _ _ _ h4, h _ _ _ h6⟩
    · cases e

theorem specKAux_fixed {ms : List AMeas} (h : ∀ a ∈ ms, ∀ e ∈ a.defs, e.2.Natural ∧ e.2.Linear) : ∀ n m, FixedTable (specKAux ms n m)
  | 0, _ => fun _ _ _ e => by cases e
  | n + 1, m => by
    have ih := specKAux_fixed h n
    intro i j k e
    unfold specKAux at e
    split at e
    · cases e
    · next a ha =>
      refine lookKDefs_fixed ?_ (h a (List.mem_of_getElem? ha)) i j k e
      intro i j k e
      split at e
      · cases e
      · exact obsKernel_fixed (ih _) _ _ _ e

end

section
variable {φ : Change} {ops : List Op} {m : MId} {p q : PId} {x y : Input}

/-- Without products, kernels do not refer to means. -/
theorem kernelAt_fixed (he : ∀ o ∈ ops, o.Elem) (hu : Unmultiplied ops) : ∀ m p q k, kernelAt (runOps ops {}) m p q = some k → k.Fixed := by
  intro m p q k h
  rw [(lookups_reach _).2] at h
  exact specKAux_fixed (fun a ha e hm => ⟨(specOps_empty_renoise (φ := ⟨id, id⟩) fun o ho => (he o ho).natural).2 a ha e hm, linear_reach he hu a ha e hm⟩) _ _ _ _ _ h

theorem kernelCall_values (he : ∀ o ∈ ops, o.Elem) (hu : Unmultiplied ops) (hφ : φ.Values) {A : Mat} :
    KernelCall (runOps (renoise φ ops) {}) m p q x y A ↔ KernelCall (runOps ops {}) m p q x y A := by
  have hn : ∀ o ∈ ops, o.Natural := fun o ho => (he o ho).natural
  have hf := kernelAt_fixed he hu
  have ek : kernelAt (runOps (renoise φ ops) {}) = fun m p q => (kernelAt (runOps ops {}) m p q).map (KExpr.renoise φ) := by
    funext m p q; exact renoise_kernelAt hn p q
  unfold KernelCall
  rw [ek]
  constructor
  · rintro ⟨k, n, hk, hA⟩
    obtain ⟨k, hk', rfl⟩ := Option.map_eq_some_iff.1 hk
    exact ⟨k, n, hk', by rw [← hA]; exact ((ev_agreeK hφ hf n).K k (hf _ _ _ _ hk') x y).symm⟩
  · rintro ⟨k, n, hk, hA⟩
    exact ⟨k.renoise φ, n, by simp only [hk, Option.map_some], by rw [← hA]; exact (ev_agreeK hφ hf n).K k (hf _ _ _ _ hk) x y⟩

theorem elwiseCall_values (he : ∀ o ∈ ops, o.Elem) (hu : Unmultiplied ops) (hφ : φ.Values) {u : List ℝ} :
    ElwiseCall (runOps (renoise φ ops) {}) m p q x y u ↔ ElwiseCall (runOps ops {}) m p q x y u := by
  have hn : ∀ o ∈ ops, o.Natural := fun o ho => (he o ho).natural
  have hf := kernelAt_fixed he hu
  have ek : kernelAt (runOps (renoise φ ops) {}) = fun m p q => (kernelAt (runOps ops {}) m p q).map (KExpr.renoise φ) := by
    funext m p q; exact renoise_kernelAt hn p q
  unfold ElwiseCall
  rw [ek]
  constructor
  · rintro ⟨k, n, hk, hA⟩
    obtain ⟨k, hk', rfl⟩ := Option.map_eq_some_iff.1 hk
    exact ⟨k, n, hk', by rw [← hA]; exact ((ev_agreeK hφ hf n).D k (hf _ _ _ _ hk') x y).symm⟩
  · rintro ⟨k, n, hk, hA⟩
    exact ⟨k.renoise φ, n, by simp only [hk, Option.map_some], by rw [← hA]; exact (ev_agreeK hφ hf n).D k (hf _ _ _ _ hk) x y⟩

end

/-! ## Programs with other values -/

section
variable {G : Dom} {φ : Change} {ops : List Op} {m : MId} {p : PId}

theorem observable_of_renoise (hn : ∀ o ∈ ops, o.Natural) {z : Input} (h : Observable G (renoise φ ops) m p z) : Observable G ops m p z := by
  rcases h with ⟨hz, hp⟩ | ⟨b1, qs, ord, b2, e, hp, hat, hz, hi⟩
  · exact .inl ⟨hz, (renoise_attached hn).1 hp⟩
  · obtain ⟨b, o', a, e', rfl, ho, rfl⟩ := renoise_split e
    cases o' <;> try (cases ho; done)
    cases ho
    have hn1 : ∀ o ∈ b, o.Natural := fun o ho => hn o (by rw [e']; exact List.mem_append_left _ ho)
    have hn2 : ∀ o ∈ b ++ [.cross qs ord], o.Natural := fun o ho => by
      rcases List.mem_append.1 ho with ho | ho
      · exact hn1 o ho
      · rw [List.mem_singleton.1 ho]; trivial
    refine .inr ⟨b, qs, ord, a, e', ?_, ?_, hz, fun i hi' li => ?_⟩
    · rw [← renoise_gps (φ := φ) hn1]
      exact hp
    · refine (renoise_attached (φ := φ) (m := m) (p := p) hn2).1 ?_
      simpa [renoise, Op.renoise] using hat
    · rw [← renoise_members (φ := φ) hn] at hi'
      rw [← renoise_members (φ := φ) hn1]
      exact hi i hi' li

theorem obsFits_of_renoise (hφ : KeepsSize φ) (hn : ∀ o ∈ ops, o.Natural) {obs : Obs} (h : ObsFits G (renoise φ ops) m (obs.renoise φ)) :
    ObsFits G ops m obs := by
  cases obs with
  | exact p z noise y =>
    obtain ⟨h1, h2, h3, h4⟩ := h
    exact ⟨(hφ.1 noise).1.symm.trans h1, (hφ.1 noise).2.symm.trans h2, (hφ.2 y).symm.trans h3, observable_of_renoise hn h4⟩
  | pseudo pu p o =>
    obtain ⟨h1, ⟨a1, a2, a3, a4, a5⟩, h3, h4⟩ := h
    exact ⟨h1, ⟨a1, a2, a3, a4, (hφ.2 o.y).symm.trans a5⟩, observable_of_renoise hn h3, observable_of_renoise hn h4⟩

theorem noisePSD_values (hv : φ.Values) {obs : Obs} : (obs.renoise φ).NoisePSD ↔ obs.NoisePSD := by
  cases obs with
  | exact p z noise y => simp only [Obs.renoise, Obs.NoisePSD, hv noise]
  | pseudo pu p o => rfl

theorem Op.Elem.of_renoise {o : Op} (h : (o.renoise φ).Elem) : o.Elem := by cases o <;> exact h

theorem elem_of_renoise (h : ∀ o ∈ renoise φ ops, o.Elem) : ∀ o ∈ ops, o.Elem := fun _ ho =>
  Op.Elem.of_renoise (h _ (List.mem_map_of_mem ho))

theorem unmultiplied_renoise : Unmultiplied (renoise φ ops) ↔ Unmultiplied ops := by
  constructor
  · intro h p q ord ho
    exact h p q ord (List.mem_map.2 ⟨_, ho, rfl⟩)
  · intro h p q ord ho
    obtain ⟨o', ho', e⟩ := List.mem_map.1 ho
    cases o' <;> try (cases e; done)
    cases e
    exact h _ _ _ ho'

theorem Tame.of_renoise (h : Tame G (Stheno.renoise φ ops)) (hφ : KeepsSize φ) (hv : φ.Values) (hu : Unmultiplied ops) : Tame G ops := by
  have he := elem_of_renoise h.elem
  have hn : ∀ o ∈ ops, o.Natural := fun o ho => (he o ho).natural
  have hsub : ∀ {b a : List Op} {o : Op}, ops = b ++ o :: a → ∀ o ∈ b, o.Natural := fun e o ho =>
    hn o (e ▸ List.mem_append_left _ ho)
  refine ⟨he, fun b o a e m d hd => ?_, fun b m obs a e hm => ?_, fun m obs ho => ?_, ?_⟩
  · refine h.defs (Stheno.renoise φ b) (o.renoise φ) (Stheno.renoise φ a) (by rw [e]; simp [Stheno.renoise]) m d ?_
    rw [written_renoise, renoise_gps (hsub e)]
    exact hd
  · exact obsFits_of_renoise hφ (hsub e) (h.obs (Stheno.renoise φ b) m (obs.renoise φ) (Stheno.renoise φ a)
      (by rw [e]; simp [Stheno.renoise, Op.renoise]) ((renoise_has (hsub e)).2 hm))
  · exact (noisePSD_values hv).1 (h.noise m _ (List.mem_map.2 ⟨_, ho, rfl⟩))
  · intro m a es r p d es' ha e
    have hF : (canon (specOps (Stheno.renoise φ ops) {})).F m = (canon (specOps ops {})).F m := reading_renoise he hu m
    rw [← hF]
    have hm : (specOps (Stheno.renoise φ ops) {}).ms[m]? = some (a.renoise φ) := by
      rw [renoise_spec hn]
      exact (List.getElem?_map ..).trans (by rw [ha]; rfl)
    exact h.smooth m _ es r p d es' hm e

theorem pdIn_values (he : ∀ o ∈ ops, o.Elem) (hu : Unmultiplied ops) (hv : φ.Values) {obs : Obs} :
    PDIn (runOps (renoise φ ops) {}) m (obs.renoise φ) ↔ PDIn (runOps ops {}) m obs := by
  cases obs with
  | exact p z noise y => simp only [Obs.renoise, PDIn, hv noise, kernelCall_values he hu hv]
  | pseudo pu p o => simp only [Obs.renoise, PseudoData.revalue, PDIn, kernelCall_values he hu hv, elwiseCall_values he hu hv]

/-- Whether a program is regular does not depend on the values that are observed. -/
theorem regular_values (hφ : KeepsSize φ) (hv : φ.Values) (hu : Unmultiplied ops) : Regular G (renoise φ ops) ↔ Regular G ops := by
  constructor
  · intro h
    have ht := h.toTame.of_renoise hφ hv hu
    have hsub : ∀ {b a : List Op} {o : Op}, ops = b ++ o :: a → ∀ o ∈ b, o.Natural := fun e o ho =>
      (ht.elem o (by rw [e]; exact List.mem_append_left _ ho)).natural
    exact ⟨⟨ht, fun b m obs a e hm => (pdIn_values ht.elem hu hv).1 (h.pd (renoise φ b) m (obs.renoise φ) (renoise φ a)
      (by rw [e]; simp [renoise, Op.renoise]) ((renoise_has (hsub e)).2 hm))⟩⟩
  · intro h
    refine ⟨⟨h.toTame.renoise hφ (fun m obs ho => (noisePSD_values hv).2 (h.noise m obs ho)) (smooth_renoise h.toTame hu),
      fun before m obs after e hm => ?_⟩⟩
    obtain ⟨b, o', a, e', rfl, ho, rfl⟩ := renoise_split e
    have hn : ∀ o ∈ b, o.Natural := fun o ho => (h.elem o (by rw [e']; exact List.mem_append_left _ ho)).natural
    cases o' <;> try (cases ho; done)
    cases ho
    exact (pdIn_values h.elem hu hv).2 (h.pd b m _ a e' ((renoise_has hn).1 hm))

end

/-- Forgetting the values, but not how many there are. -/
def Change.zeros : Change := ⟨id, fun y => List.replicate y.length 0⟩

theorem Change.zeros_keeps : KeepsSize .zeros := ⟨fun _ => ⟨rfl, rfl⟩, fun y => by simp [Change.zeros]⟩

theorem Change.zeros_values : Change.zeros.Values := fun _ => rfl

/-- Observations of `y₁`, `y₂`, and `θ y₁ + (1 - θ) y₂`, that are otherwise the same. -/
inductive MixObs (θ : ℝ) : Obs → Obs → Obs → Prop
  | exact (p : PId) (x : Input) (N : Mat) (y₁ y₂ : List ℝ) (h : y₁.length = y₂.length) :
    MixObs θ (.exact p x N y₁) (.exact p x N y₂) (.exact p x N (List.zipWith (fun a b => θ * a + (1 - θ) * b) y₁ y₂))
  | pseudo (pu p : PId) (o : PseudoData) (y₁ y₂ : List ℝ) (h : y₁.length = y₂.length) :
    MixObs θ (.pseudo pu p { o with y := y₁ }) (.pseudo pu p { o with y := y₂ })
      (.pseudo pu p { o with y := List.zipWith (fun a b => θ * a + (1 - θ) * b) y₁ y₂ })

theorem MixObs.refl (θ : ℝ) (o : Obs) : MixObs θ o o o := by
  have e : ∀ y : List ℝ, List.zipWith (fun a b => θ * a + (1 - θ) * b) y y = y := fun y => by
    induction y with
    | nil => rfl
    | cons a y ih => exact congrArg₂ _ (by ring) ih
  cases o with
  | exact p x N y => simpa only [e] using MixObs.exact (θ := θ) p x N y y rfl
  | pseudo pu p o => simpa only [e] using MixObs.pseudo (θ := θ) pu p o o.y o.y rfl

/-- Operations that are the same, or condition the same measure on observations of `y₁`, `y₂`, and `θ y₁ + (1 - θ) y₂`. -/
inductive Mix (θ : ℝ) : Op → Op → Op → Prop
  | same (o : Op) : Mix θ o o o
  | condition (m : MId) {o₁ o₂ o₃ : Obs} (h : MixObs θ o₁ o₂ o₃) : Mix θ (.condition m o₁) (.condition m o₂) (.condition m o₃)

/-- Programs that do the same, except that observed values in the third are `θ` times those in the first plus `1 - θ` times
those in the second. -/
inductive Mixed (θ : ℝ) : List Op → List Op → List Op → Prop
  | nil : Mixed θ [] [] []
  | cons {o₁ o₂ o₃ : Op} {l₁ l₂ l₃ : List Op} (h : Mix θ o₁ o₂ o₃) (t : Mixed θ l₁ l₂ l₃) : Mixed θ (o₁ :: l₁) (o₂ :: l₂) (o₃ :: l₃)

section
variable {θ : ℝ} {l₁ l₂ l₃ : List Op}

theorem Mix.zeros {o₁ o₂ o₃ : Op} (h : Mix θ o₁ o₂ o₃) : o₁.renoise .zeros = o₂.renoise .zeros ∧ o₁.renoise .zeros = o₃.renoise .zeros := by
  cases h with
  | same => exact ⟨rfl, rfl⟩
  | condition m h =>
    cases h with
    | exact p x N y₁ y₂ h => simp [Op.renoise, Obs.renoise, Change.zeros, h]
    | pseudo pu p o y₁ y₂ h => simp [Op.renoise, Obs.renoise, PseudoData.revalue, Change.zeros, h]

theorem Mixed.zeros (h : Mixed θ l₁ l₂ l₃) : renoise .zeros l₁ = renoise .zeros l₂ ∧ renoise .zeros l₁ = renoise .zeros l₃ := by
  induction h with
  | nil => exact ⟨rfl, rfl⟩
  | cons h t ih => exact ⟨congrArg₂ List.cons h.zeros.1 ih.1, congrArg₂ List.cons h.zeros.2 ih.2⟩

theorem Mixed.split (h : Mixed θ l₁ l₂ l₃) {b₁ a₁ : List Op} {o₁ : Op} (e : l₁ = b₁ ++ o₁ :: a₁) :
    ∃ b₂ o₂ a₂ b₃ o₃ a₃, l₂ = b₂ ++ o₂ :: a₂ ∧ l₃ = b₃ ++ o₃ :: a₃ ∧ Mixed θ b₁ b₂ b₃ ∧ Mix θ o₁ o₂ o₃ := by
  induction h generalizing b₁ with
  | nil => simp at e
  | cons h t ih =>
    cases b₁ with
    | nil =>
      cases e
      exact ⟨[], _, _, [], _, _, rfl, rfl, .nil, h⟩
    | cons o b₁ =>
      cases e
      obtain ⟨b₂, o₂, a₂, b₃, o₃, a₃, e₂, e₃, hb, ho⟩ := ih rfl
      exact ⟨_ :: b₂, o₂, a₂, _ :: b₃, o₃, a₃, by rw [e₂]; rfl, by rw [e₃]; rfl, .cons h hb, ho⟩

end

/-! ## Expectations and covariances -/

section
variable {V : Type} [AddCommGroup V] [Module ℝ V] {θ : ℝ} {S₁ S₂ S₃ : SO V}

/-- Covariances are the same, and expectations in the third are `θ` times those in the first plus `1 - θ` times those in the second. -/
structure SO.Mixed (θ : ℝ) (S₁ S₂ S₃ : SO V) : Prop where
  C₂ : S₂.C = S₁.C
  C₃ : S₃.C = S₁.C
  E : ∀ u, S₃.E u = θ * S₁.E u + (1 - θ) * S₂.E u

theorem SO.Mixed.refl (S : SO V) : SO.Mixed θ S S S := ⟨rfl, rfl, fun u => by ring⟩

theorem mix_getD {y₁ y₂ : List ℝ} (h : y₁.length = y₂.length) (i : ℕ) :
    (List.zipWith (fun a b => θ * a + (1 - θ) * b) y₁ y₂).getD i 0 = θ * y₁.getD i 0 + (1 - θ) * y₂.getD i 0 := by
  by_cases hi : i < y₁.length
  · have hi' : i < y₂.length := h ▸ hi
    simp [List.getD_eq_getElem?_getD, hi, hi']
  · have hi' : ¬ i < y₂.length := h ▸ hi
    simp only [not_lt] at hi hi'
    simp [List.getD_eq_getElem?_getD, hi, hi']

theorem noisyGram_of_C {S S' : SO V} (h : S'.C = S.C) (zs : List V) (N : Mat) : noisyGram S' zs N = noisyGram S zs N := by
  unfold noisyGram gram
  rw [h]

theorem crossGram_of_C {S S' : SO V} (h : S'.C = S.C) (zs xs : List V) : crossGram S' zs xs = crossGram S zs xs := by
  unfold crossGram
  rw [h]

theorem quadSum_of_C {S S' : SO V} (h : S'.C = S.C) (zs : List V) (W : Matrix (Fin zs.length) (Fin zs.length) ℝ) (u v : V) :
    quadSum S' zs W u v = quadSum S zs W u v := by
  unfold quadSum
  rw [h]

/-- Linear updates of mixtures by mixtures of weights. -/
theorem SO.Mixed.upd (h : SO.Mixed θ S₁ S₂ S₃) {zs : List V} {W₁ W₂ W₃ : Matrix (Fin zs.length) (Fin zs.length) ℝ} {hW₁ : W₁.IsSymm} {hW₂ : W₂.IsSymm}
    {hW₃ : W₃.IsSymm} {w₁ w₂ w₃ : Fin zs.length → ℝ} (e₂ : W₂ = W₁) (e₃ : W₃ = W₁) (hw : w₃ = θ • w₁ + (1 - θ) • w₂) :
    SO.Mixed θ (S₁.upd zs W₁ hW₁ w₁) (S₂.upd zs W₂ hW₂ w₂) (S₃.upd zs W₃ hW₃ w₃) := by
  subst e₂ e₃ hw
  refine ⟨LinearMap.ext fun u => LinearMap.ext fun v => ?_, LinearMap.ext fun u => LinearMap.ext fun v => ?_, fun u => ?_⟩
  · rw [SO.upd_C, SO.upd_C, quadSum_of_C h.C₂, h.C₂]
  · rw [SO.upd_C, SO.upd_C, quadSum_of_C h.C₃, h.C₃]
  · simp only [SO.upd_E, h.E, h.C₂, h.C₃, Pi.add_apply, Pi.smul_apply, smul_eq_mul, mul_add, Finset.mul_sum]
    have : ∀ x, S₁.C (zs.get x) u * (θ * w₁ x) + S₁.C (zs.get x) u * ((1 - θ) * w₂ x) =
        θ * (S₁.C (zs.get x) u * w₁ x) + (1 - θ) * (S₁.C (zs.get x) u * w₂ x) := fun x => by ring
    simp only [this, Finset.sum_add_distrib]
    ring

theorem SO.Mixed.resid (h : SO.Mixed θ S₁ S₂ S₃) {y₁ y₂ : List ℝ} (hy : y₁.length = y₂.length) (zs : List V) :
    (fun b : Fin zs.length => (List.zipWith (fun a b => θ * a + (1 - θ) * b) y₁ y₂).getD b 0 - S₃.E (zs.get b)) =
      θ • (fun b : Fin zs.length => y₁.getD b 0 - S₁.E (zs.get b)) + (1 - θ) • fun b : Fin zs.length => y₂.getD b 0 - S₂.E (zs.get b) := by
  funext b
  simp only [mix_getD hy, h.E, Pi.add_apply, Pi.smul_apply, smul_eq_mul]
  ring

theorem SO.Mixed.observe (h : SO.Mixed θ S₁ S₂ S₃) {y₁ y₂ : List ℝ} (hy : y₁.length = y₂.length) (zs : List V) (N : Mat) :
    SO.Mixed θ (S₁.observe zs N y₁) (S₂.observe zs N y₂) (S₃.observe zs N (List.zipWith (fun a b => θ * a + (1 - θ) * b) y₁ y₂)) := by
  have g₂ := noisyGram_of_C h.C₂ zs N
  have g₃ := noisyGram_of_C h.C₃ zs N
  by_cases hp : (noisyGram S₁ zs N).PosDef
  · rw [SO.observe, SO.observe, SO.observe, dif_pos hp, dif_pos (g₂ ▸ hp), dif_pos (g₃ ▸ hp)]
    refine h.upd (by rw [g₂]) (by rw [g₃]) ?_
    rw [g₂, g₃, h.resid hy, Matrix.mulVec_add, Matrix.mulVec_smul, Matrix.mulVec_smul]
  · rw [SO.observe, SO.observe, SO.observe, dif_neg hp, dif_neg (g₂ ▸ hp), dif_neg (g₃ ▸ hp)]
    exact h

theorem SO.Mixed.observeSparse (h : SO.Mixed θ S₁ S₂ S₃) {y₁ y₂ : List ℝ} (hy : y₁.length = y₂.length) (zs xs : List V) (o : PseudoData) :
    SO.Mixed θ (S₁.observeSparse zs xs { o with y := y₁ }) (S₂.observeSparse zs xs { o with y := y₂ })
      (S₃.observeSparse zs xs { o with y := List.zipWith (fun a b => θ * a + (1 - θ) * b) y₁ y₂ }) := by
  have g₂ := noisyGram_of_C h.C₂ zs o.noiseZ
  have g₃ := noisyGram_of_C h.C₃ zs o.noiseZ
  by_cases hp : (noisyGram S₁ zs o.noiseZ).PosDef
  · rw [SO.observeSparse, SO.observeSparse, SO.observeSparse, dif_pos hp, dif_pos (g₂ ▸ hp), dif_pos (g₃ ▸ hp)]
    refine h.upd (by simp only [g₂, crossGram_of_C h.C₂, h.C₂]) (by simp only [g₃, crossGram_of_C h.C₃, h.C₃]) ?_
    simp only [g₂, g₃, crossGram_of_C h.C₂, crossGram_of_C h.C₃, h.C₂, h.C₃, h.resid hy, sparseWeights, Matrix.mulVec_add, Matrix.mulVec_smul]
  · rw [SO.observeSparse, SO.observeSparse, SO.observeSparse, dif_neg hp, dif_neg (g₂ ▸ hp), dif_neg (g₃ ▸ hp)]
    exact h

theorem SO.Mixed.given (h : SO.Mixed θ S₁ S₂ S₃) (F : PId → RF V) {o₁ o₂ o₃ : Obs} (ho : MixObs θ o₁ o₂ o₃) :
    SO.Mixed θ (S₁.given F o₁) (S₂.given F o₂) (S₃.given F o₃) := by
  cases ho with
  | exact p x N y₁ y₂ hy =>
    simp only [SO.given_exact]
    split
    · exact h
    · split
      · exact h.observe hy _ N
      · exact h
  | pseudo pu p o y₁ y₂ hy =>
    simp only [SO.given]
    split
    · exact h.observeSparse hy _ _ o
    · exact h

end

section
variable {θ : ℝ} {l₁ l₂ l₃ : List Op}

/-- **Values and means.** Without products, expectations are affine in the values that are observed, and covariances do not depend
on them. -/
theorem reading_mix (h : Mixed θ l₁ l₂ l₃) (he : ∀ o ∈ l₁, o.Elem) (hu : Unmultiplied l₁) (m : MId) :
    ((reading l₂).F m = (reading l₁).F m ∧ (reading l₃).F m = (reading l₁).F m) ∧
      SO.Mixed θ ((reading l₁).S m) ((reading l₂).S m) ((reading l₃).S m) := by
  obtain ⟨z₂, z₃⟩ := h.zeros
  have he₁ : ∀ o ∈ renoise .zeros l₁, o.Elem := fun o ho => by
    obtain ⟨o', ho', rfl⟩ := List.mem_map.1 ho
    exact (he o' ho').renoise
  have hu₁ : Unmultiplied (renoise .zeros l₁) := unmultiplied_renoise.2 hu
  have he₂ : ∀ o ∈ l₂, o.Elem := elem_of_renoise (z₂ ▸ he₁)
  have he₃ : ∀ o ∈ l₃, o.Elem := elem_of_renoise (z₃ ▸ he₁)
  have hu₂ : Unmultiplied l₂ := unmultiplied_renoise.1 (z₂ ▸ hu₁)
  have hu₃ : Unmultiplied l₃ := unmultiplied_renoise.1 (z₃ ▸ hu₁)
  have hn₁ : ∀ o ∈ l₁, o.Natural := fun o ho => (he o ho).natural
  have hn₂ : ∀ o ∈ l₂, o.Natural := fun o ho => (he₂ o ho).natural
  have hn₃ : ∀ o ∈ l₃, o.Natural := fun o ho => (he₃ o ho).natural
  have F₂ : ∀ m, (reading l₂).F m = (reading l₁).F m := fun m => by
    rw [← reading_renoise (φ := .zeros) he hu, z₂, reading_renoise he₂ hu₂]
  have F₃ : ∀ m, (reading l₃).F m = (reading l₁).F m := fun m => by
    rw [← reading_renoise (φ := .zeros) he hu, z₃, reading_renoise he₃ hu₃]
  refine ⟨⟨F₂ m, F₃ m⟩, ?_⟩
  have base : ∀ {l : List Op}, (∀ o ∈ l, o.Natural) → renoise .zeros l₁ = renoise .zeros l → ∀ m : MId,
      ((specOps l₁ {}).ms[m]?).map (AMeas.renoise .zeros) = ((specOps l {}).ms[m]?).map (AMeas.renoise .zeros) := by
    intro l hn z m
    have e : specOps (renoise .zeros l₁) {} = specOps (renoise .zeros l) {} := by rw [z]
    rw [renoise_spec hn₁, renoise_spec hn] at e
    have := congrArg (fun w : AWorld => w.ms[m]?) e
    simpa [AWorld.renoise] using this
  have none_of : ∀ {l : List Op}, (∀ o ∈ l, o.Natural) → renoise .zeros l₁ = renoise .zeros l → ∀ m : MId,
      ((specOps l₁ {}).ms[m]?).bind (·.base) = none → ((specOps l {}).ms[m]?).bind (·.base) = none := by
    intro l hn z m h0
    have e := base hn z m
    cases h1 : (specOps l {}).ms[m]? with
    | none => rfl
    | some a' =>
      rw [h1] at e
      obtain ⟨a, ha, ea⟩ := Option.map_eq_some_iff.1 e
      rw [ha] at h0
      have := congrArg AMeas.base ea
      simp only [AMeas.renoise] at this
      change a.base = none at h0
      rw [h0] at this
      show a'.base = none
      cases hb : a'.base with
      | none => rfl
      | some b => rw [hb] at this; cases this
  induction m using Nat.strong_induction_on with
  | _ m ih =>
    cases ha : (((specOps l₁ {}).ms[m]?).bind (·.base)) with
    | none =>
      rw [canon_S_none ha, canon_S_none (none_of hn₂ z₂ m ha), canon_S_none (none_of hn₃ z₃ m ha)]
      exact .refl _
    | some b =>
      obtain ⟨a, ha, hb⟩ := Option.bind_eq_some_iff.1 ha
      obtain ⟨before, after, e, hh, hm, -⟩ := base_from l₁ m a b ha hb
      obtain ⟨b₂, o₂, a₂, b₃, o₃, a₃, e₂, e₃, hbb, ho⟩ := h.split e
      obtain ⟨c₂, c₃, hc₂, hc₃, hobs⟩ : ∃ c₂ c₃, o₂ = .condition b.prior c₂ ∧ o₃ = .condition b.prior c₃ ∧ MixObs θ b.obs c₂ c₃ := by
        cases ho with
        | same => exact ⟨_, _, rfl, rfl, .refl θ _⟩
        | condition m h => exact ⟨_, _, rfl, rfl, h⟩
      subst hc₂ hc₃
      obtain ⟨zb₂, zb₃⟩ := hbb.zeros
      have nat : ∀ {l b a : List Op} {o : Op}, l = b ++ o :: a → (∀ o ∈ l, o.Natural) → ∀ o ∈ b, o.Natural := fun e hn o ho =>
        hn o (e ▸ List.mem_append_left _ ho)
      have nb := nat e hn₁
      have nb₂ := nat e₂ hn₂
      have nb₃ := nat e₃ hn₃
      have g₂ : Gives l₂ b₂ b.prior c₂ m := ⟨⟨a₂, e₂⟩, (renoise_has nb₂).1 (zb₂ ▸ (renoise_has (φ := .zeros) nb).2 hh), by
        rw [hm, ← renoise_ms (φ := .zeros) nb, zb₂, renoise_ms nb₂]⟩
      have g₃ : Gives l₃ b₃ b.prior c₃ m := ⟨⟨a₃, e₃⟩, (renoise_has nb₃).1 (zb₃ ▸ (renoise_has (φ := .zeros) nb).2 hh), by
        rw [hm, ← renoise_ms (φ := .zeros) nb, zb₃, renoise_ms nb₃]⟩
      obtain ⟨s₂, hs₂, hb₂, -, -⟩ := g₂.state
      obtain ⟨s₃, hs₃, hb₃, -, -⟩ := g₃.state
      have F₂ : (canon (specOps l₂ {})).F b.prior = (canon (specOps l₁ {})).F b.prior := F₂ b.prior
      have F₃ : (canon (specOps l₃ {})).F b.prior = (canon (specOps l₁ {})).F b.prior := F₃ b.prior
      rw [canon_S_some (Inv.reach l₁).wf.ms ha hb, canon_S_some (Inv.reach l₂).wf.ms hs₂ hb₂, canon_S_some (Inv.reach l₃).wf.ms hs₃ hb₃, F₂, F₃]
      exact (ih _ (((Inv.reach l₁).wf.ms m a ha).base_lt b hb)).given _ hobs

end

end Stheno
