import Mathlib.Topology.Instances.Matrix
import Mathlib.Topology.Algebra.Field
import Verif.Jitter
import Verif.Derive

/-!
# More noise

Programs without products that differ only in the noise of observations: the values of processes are the same random variables, and
variances are no smaller where the noise is larger.
-/

namespace Stheno

open Matrix

section Algebra
variable {V : Type} [AddCommGroup V] [Module ℝ V]

/-- The posterior variance is the smallest variance of the error of a linear predictor. -/
theorem IsUpdate.min {S S' : SO V} {zs : List V} {noise : Mat} {y : List ℝ} (h : IsUpdate S S' zs noise y)
    (hp : (noisyGram S zs noise).PosDef) (u : V) (w : Fin zs.length → ℝ) :
    S'.C u u ≤ S.C (u - comb zs w) (u - comb zs w) + w ⬝ᵥ (noise.sq zs.length *ᵥ w) := by
  set K := noisyGram S zs noise with hK
  set c := covs S zs u with hc
  have hdet : IsUnit K.det := isUnit_iff_ne_zero.2 hp.det_pos.ne'
  have hsym : Kᵀ = K := by
    have := hp.1
    rwa [IsHermitian, conjTranspose_eq_transpose_of_trivial] at this
  have h1 : S.C (u - comb zs w) (u - comb zs w) = S.C u u - 2 * (w ⬝ᵥ c) + w ⬝ᵥ (gram S zs *ᵥ w) := by
    simp only [map_sub, LinearMap.sub_apply]
    rw [S.symm (comb zs w) u, C_comb_comb, show S.C u (comb zs w) = w ⬝ᵥ c from C_comb_right S zs w u]
    ring
  have h2 : w ⬝ᵥ (gram S zs *ᵥ w) + w ⬝ᵥ (noise.sq zs.length *ᵥ w) = w ⬝ᵥ (K *ᵥ w) := by
    rw [hK, noisyGram, add_mulVec, dotProduct_add]
  have h3 := hp.posSemidef.dotProduct_mulVec_nonneg (w - K⁻¹ *ᵥ c)
  have h4 : K *ᵥ (K⁻¹ *ᵥ c) = c := by rw [mulVec_mulVec, mul_nonsing_inv _ hdet, one_mulVec]
  have h5 : (K⁻¹ *ᵥ c) ⬝ᵥ (K *ᵥ w) = w ⬝ᵥ c := by
    rw [dotProduct_mulVec, ← mulVec_transpose, hsym, h4, dotProduct_comm]
  simp only [star_trivial, mulVec_sub, sub_dotProduct, dotProduct_sub, h4, h5] at h3
  rw [h.C hp, quadSum_eq, h1, ← hc]
  have h6 : (K⁻¹ *ᵥ c) ⬝ᵥ c = c ⬝ᵥ (K⁻¹ *ᵥ c) := dotProduct_comm _ _
  linarith

/-- Variances are no smaller where those of the prior are no smaller and the noise is larger. -/
theorem IsUpdate.mono {S S' T T' : SO V} {zs : List V} {N N' : Mat} {y y' : List ℝ} (h : IsUpdate S S' zs N y) (g : IsUpdate T T' zs N' y')
    (hp : (noisyGram S zs N).PosDef) (gp : (noisyGram T zs N').PosDef) (hST : ∀ u, S.C u u ≤ T.C u u)
    (hN : (N'.sq zs.length - N.sq zs.length).PosSemidef) (u : V) : S'.C u u ≤ T'.C u u := by
  rw [g.residual gp]
  refine (h.min hp u (weights T zs N' u)).trans (add_le_add (hST _) ?_)
  have := hN.dotProduct_mulVec_nonneg (weights T zs N' u)
  simp only [star_trivial, sub_mulVec, dotProduct_sub] at this
  linarith

/-- Inverses of matrices tend to the inverse of the limit. -/
theorem tendsto_inv {ι : Type} {l : Filter ι} {n : ℕ} {A : ι → Matrix (Fin n) (Fin n) ℝ} {B : Matrix (Fin n) (Fin n) ℝ}
    (h : Filter.Tendsto A l (nhds B)) (hB : B.det ≠ 0) : Filter.Tendsto (fun t => (A t)⁻¹) l (nhds B⁻¹) := by
  have hd : Filter.Tendsto (fun t => (A t).det) l (nhds B.det) := ((continuous_id.matrix_det).tendsto B).comp h
  have ha : Filter.Tendsto (fun t => (A t).adjugate) l (nhds B.adjugate) := ((continuous_id.matrix_adjugate).tendsto B).comp h
  simp only [Matrix.inv_def, Ring.inverse_eq_inv']
  exact (hd.inv₀ hB).smul ha

/-- Expectations and covariances given observations tend to the limit if those of the prior and the noise do. -/
theorem IsUpdate.tendsto {ι : Type} {l : Filter ι} {S : SO V} {S' : SO V} {T T' : ι → SO V} {zs : List V} {N : Mat} {N' : ι → Mat} {y : List ℝ}
    (h : IsUpdate S S' zs N y) (hp : (noisyGram S zs N).PosDef) (hy : y.length = zs.length)
    (g : ∀ᶠ t in l, IsUpdate (T t) (T' t) zs (N' t) y ∧ (noisyGram (T t) zs (N' t)).PosDef)
    (hE : ∀ u, Filter.Tendsto (fun t => (T t).E u) l (nhds (S.E u)))
    (hC : ∀ u v, Filter.Tendsto (fun t => (T t).C u v) l (nhds (S.C u v)))
    (hN : ∀ i j, Filter.Tendsto (fun t => (N' t).e i j) l (nhds (N.e i j))) :
    (∀ u, Filter.Tendsto (fun t => (T' t).E u) l (nhds (S'.E u))) ∧ ∀ u v, Filter.Tendsto (fun t => (T' t).C u v) l (nhds (S'.C u v)) := by
  have hK : Filter.Tendsto (fun t => noisyGram (T t) zs (N' t)) l (nhds (noisyGram S zs N)) :=
    tendsto_pi_nhds.2 fun i => tendsto_pi_nhds.2 fun j => (hC _ _).add (hN _ _)
  have hW := tendsto_inv hK hp.det_pos.ne'
  have hWe : ∀ i j, Filter.Tendsto (fun t => (noisyGram (T t) zs (N' t))⁻¹ i j) l (nhds ((noisyGram S zs N)⁻¹ i j)) :=
    fun i j => tendsto_pi_nhds.1 (tendsto_pi_nhds.1 hW i) j
  refine ⟨fun u => ?_, fun u v => ?_⟩
  · rw [h.E hp hy]
    refine Filter.Tendsto.congr' (g.mono fun t ht => (ht.1.E ht.2 hy u).symm) ?_
    simp only [mulVec, dotProduct]
    exact (hE u).add (tendsto_finsetSum _ fun a _ => (hC _ _).mul (tendsto_finsetSum _ fun b _ => (hWe a b).mul (tendsto_const_nhds.sub (hE _))))
  · rw [h.C hp]
    refine Filter.Tendsto.congr' (g.mono fun t ht => (ht.1.C ht.2 u v).symm) ?_
    exact (hC u v).sub (tendsto_finsetSum _ fun a _ => tendsto_finsetSum _ fun b _ => ((hC _ _).mul (hWe a b)).mul (hC _ _))

end Algebra

/-! ## The same random variables -/

/-- Functions that do not refer to means. -/
def Fn.Fixed : Fn → Prop
  | .meanOf _ _ => False
  | _ => True

/-- Definitions without products. -/
def ProcDef.Linear : ProcDef → Prop
  | .addFn _ f | .fmul _ f => f.Fixed
  | .rem _ _ => False
  | _ => True

section
variable {S S' : SO RV} {m : MId} {T : PId → Option (List RV)}

theorem Fn.Fixed.vals {f : Fn} (h : f.Fixed) (g : PId → Input → Option (List RV)) (x : Input) (n : ℕ) : f.vals S g x n = f.vals S' g x n := by
  cases f with
  | user => cases x <;> rfl
  | const => rfl
  | meanOf => exact h.elim

theorem defVal_linear {r : PId} {g : PId → Input → Option (List RV)} {d : ProcDef} (h : d.Linear) (x : Input) :
    defVal S m r T g d x = defVal S' m r T g d x := by
  cases d with
  | addFn p f | fmul p f =>
    simp only [defVal]
    have : ∀ x n, f.vals S g x n = f.vals S' g x n := fun x n => Fn.Fixed.vals h g x n
    simp only [this]
  | rem => exact h.elim
  | _ => cases x <;> rfl

theorem valD_linear {base : PId → Input → Option (List RV)} : ∀ {es : List (PId × ProcDef)}, (∀ e ∈ es, e.2.Linear) →
    valD S m T base es = valD S' m T base es
  | [], _ => rfl
  | (r, d) :: es, h => by
    have ih := valD_linear (base := base) (es := es) fun e he => h e (List.mem_cons_of_mem _ he)
    funext p x
    unfold valD
    rw [ih, defVal_linear (h _ List.mem_cons_self)]

mutual
theorem vals_linear {base : PId → Input → Option (List RV)} {es : List (PId × ProcDef)} (h : ∀ e ∈ es, e.2.Linear) :
    ∀ (x : Input) (p : PId), vals S m base es x p = vals S' m base es x p
  | .num xs, p => by
    simp only [vals]
    rw [valD_linear h]
  | .fdd q y, p => by
    simp only [vals]
    rw [valD_linear h]
    congr 1
    funext q
    exact vals_linear h y q
  | .tup xs, p => by
    simp only [vals]
    exact valsL_linear h xs p
theorem valsL_linear {base : PId → Input → Option (List RV)} {es : List (PId × ProcDef)} (h : ∀ e ∈ es, e.2.Linear) :
    ∀ (xs : List Input) (p : PId), valsL S m base es xs p = valsL S' m base es xs p
  | [], _ => rfl
  | x :: xs, p => by
    simp only [valsL]
    rw [vals_linear h x p, valsL_linear h xs p]
end

end

/-- The values of processes do not depend on the observations. -/
theorem canon_F_renoise {L : AWorld} {φ : Change} (wf : WfMs L) (wf' : WfMs (L.renoise φ)) (hl : ∀ a ∈ L.ms, ∀ e ∈ a.defs, e.2.Linear) (m : MId) :
    (canon (L.renoise φ)).F m = (canon L).F m := by
  induction m using Nat.strong_induction_on with
  | _ m ih =>
    have hm : (L.renoise φ).ms[m]? = L.ms[m]?.map (AMeas.renoise φ) := List.getElem?_map ..
    cases ha : L.ms[m]? with
    | none =>
      rw [ha] at hm
      rw [canon_F wf (.inr ⟨ha, rfl⟩), canon_F wf' (.inr ⟨hm, rfl⟩)]
      funext p x
      exact vals_linear (fun e he => absurd he List.not_mem_nil) x p
    | some a =>
      rw [ha] at hm
      rw [canon_F wf (.inl ha), canon_F wf' (.inl hm)]
      have hb : baseVal (L.renoise φ) (a.renoise φ) = baseVal L a := by
        funext p x
        unfold baseVal
        cases hu : a.base with
        | none => simp [AMeas.renoise, hu]
        | some u =>
          simp only [AMeas.renoise, hu, Option.map_some]
          rw [ih u.prior ((wf m a ha).base_lt u hu)]
      rw [hb]
      funext p x
      exact vals_linear (hl a (List.mem_of_getElem? ha)) x p

/-! ## Programs -/

section
variable {G : Dom} {φ : Change} {ops : List Op} {m : MId} {p : PId}

theorem Op.Elem.natural {o : Op} (h : o.Elem) : o.Natural := by
  cases o with
  | gp => exact ⟨h.1, h.2.1⟩
  | addGP => exact h
  | _ => trivial

theorem Op.Elem.renoise {o : Op} (h : o.Elem) : (o.renoise φ).Elem := by cases o <;> exact h

variable (hn : ∀ o ∈ ops, o.Natural)
include hn

theorem renoise_spec : specOps (renoise φ ops) {} = (specOps ops {}).renoise φ := (specOps_empty_renoise hn).1

theorem renoise_gps : (runOps (renoise φ ops) {}).gps = (runOps ops {}).gps := by
  rw [(Inv.reach _).rel.gps, (Inv.reach _).rel.gps, renoise_spec hn]
  rfl

theorem renoise_ms : (runOps (renoise φ ops) {}).ms.length = (runOps ops {}).ms.length := by
  rw [(Inv.reach _).rel.len, (Inv.reach _).rel.len, renoise_spec hn]
  exact List.length_map ..

/-- Programs that differ in noise have the same measures. -/
theorem renoise_has : HasMeasure (runOps (renoise φ ops) {}) m ↔ HasMeasure (runOps ops {}) m := by
  unfold HasMeasure
  rw [renoise_ms hn]

/-- Programs that differ in noise have the same processes in their measures. -/
theorem renoise_members : members (runOps (renoise φ ops) {}) m = members (runOps ops {}) m := by
  have iv := Inv.reach ops
  have iv' := Inv.reach (renoise φ ops)
  have e := renoise_ms (φ := φ) hn
  unfold members
  have hm : (specOps (renoise φ ops) {}).ms[m]? = (specOps ops {}).ms[m]?.map (AMeas.renoise φ) := by
    rw [renoise_spec hn]
    exact List.getElem?_map ..
  cases ha : (specOps ops {}).ms[m]? with
  | none =>
    rw [ha] at hm
    have h1 : (runOps ops {}).ms[m]? = none := by
      rw [List.getElem?_eq_none_iff, iv.rel.len]
      exact List.getElem?_eq_none_iff.1 ha
    have h2 : (runOps (renoise φ ops) {}).ms[m]? = none := by
      rw [List.getElem?_eq_none_iff, iv'.rel.len]
      exact List.getElem?_eq_none_iff.1 hm
    rw [h1, h2]
  | some a =>
    rw [ha] at hm
    have hlt := (List.getElem?_eq_some_iff.1 ha).1
    obtain ⟨s, hs⟩ : ∃ s, (runOps ops {}).ms[m]? = some s :=
      ⟨_, List.getElem?_eq_getElem (by rw [iv.rel.len]; exact hlt)⟩
    obtain ⟨s', hs'⟩ : ∃ s, (runOps (renoise φ ops) {}).ms[m]? = some s :=
      ⟨_, List.getElem?_eq_getElem (by rw [e, iv.rel.len]; exact hlt)⟩
    rw [hs, hs']
    exact ((iv'.rel.meas m s' _ hs' hm).ps.trans (iv.rel.meas m s a hs ha).ps.symm)

theorem renoise_attached : Attached (runOps (renoise φ ops) {}) m p ↔ Attached (runOps ops {}) m p := by
  rw [← mem_members, ← mem_members, renoise_members hn]

theorem renoise_kernelAt (p q : PId) : kernelAt (runOps (renoise φ ops) {}) m p q = (kernelAt (runOps ops {}) m p q).map (KExpr.renoise φ) := by
  rw [(lookups_reach _).2, (lookups_reach _).2, renoise_spec hn]
  exact (specOps_empty_renoise (φ := φ) hn).2.kernel m p q

theorem renoise_meanAt (p : PId) : meanAt (runOps (renoise φ ops) {}) m p = (meanAt (runOps ops {}) m p).map (MExpr.renoise φ) := by
  rw [(lookups_reach _).1, (lookups_reach _).1, renoise_spec hn]
  exact (specOps_empty_renoise (φ := φ) hn).2.mean m p

/-- What can be observed does not depend on the noise. -/
theorem renoise_observable {z : Input} (h : Observable G ops m p z) : Observable G (renoise φ ops) m p z := by
  rcases h with ⟨hz, hp⟩ | ⟨b1, qs, ord, b2, e, hp, hat, hz, hi⟩
  · exact .inl ⟨hz, (renoise_attached hn).2 hp⟩
  · have hn1 : ∀ o ∈ b1, o.Natural := fun o ho => hn o (by rw [e]; exact List.mem_append_left _ ho)
    have hn2 : ∀ o ∈ b1 ++ [.cross qs ord], o.Natural := fun o ho => by
      rcases List.mem_append.1 ho with ho | ho
      · exact hn1 o ho
      · rw [List.mem_singleton.1 ho]; trivial
    refine .inr ⟨renoise φ b1, qs, ord, renoise φ b2, ?_, ?_, ?_, hz, fun i hi' li => ?_⟩
    · rw [e]
      simp [renoise, Op.renoise]
    · rw [renoise_gps hn1]
      exact hp
    · have := (renoise_attached (φ := φ) (m := m) (p := p) hn2).2 hat
      simpa [renoise, Op.renoise] using this
    · rw [renoise_members hn] at hi'
      rw [renoise_members hn1]
      exact hi i hi' li

end

/-- Changes that keep the sizes. -/
def KeepsSize (φ : Change) : Prop := (∀ N, (φ.noise N).r = N.r ∧ (φ.noise N).c = N.c) ∧ ∀ y, (φ.y y).length = y.length

section
variable {G : Dom} {φ : Change} {ops : List Op} {m : MId} {p : PId}

theorem renoise_split {before after : List Op} {o : Op} (h : renoise φ ops = before ++ o :: after) :
    ∃ b o' a, ops = b ++ o' :: a ∧ before = renoise φ b ∧ o = o'.renoise φ ∧ after = renoise φ a := by
  obtain ⟨b, l, e, hb, hl⟩ := List.map_eq_append_iff.1 h
  obtain ⟨o', a, el, ho, ha⟩ := List.map_eq_cons_iff.1 hl
  exact ⟨b, o', a, by rw [e, el], hb.symm, ho.symm, ha.symm⟩

theorem written_renoise (o : Op) (n : ℕ) (m : MId) : (o.renoise φ).written n m = o.written n m := by cases o <;> rfl

theorem obsFits_renoise (hφ : KeepsSize φ) (hn : ∀ o ∈ ops, o.Natural) {obs : Obs} (h : ObsFits G ops m obs) :
    ObsFits G (renoise φ ops) m (obs.renoise φ) := by
  cases obs with
  | exact p z noise y =>
    obtain ⟨h1, h2, h3, h4⟩ := h
    exact ⟨(hφ.1 noise).1.trans h1, (hφ.1 noise).2.trans h2, (hφ.2 y).trans h3, renoise_observable hn h4⟩
  | pseudo pu p o =>
    obtain ⟨h1, ⟨a1, a2, a3, a4, a5⟩, h3, h4⟩ := h
    exact ⟨h1, ⟨a1, a2, a3, a4, (hφ.2 o.y).trans a5⟩, renoise_observable hn h3, renoise_observable hn h4⟩

/-- Programs with other noise are tame. -/
theorem Tame.renoise (h : Tame G ops) (hφ : KeepsSize φ) (hp : ∀ m obs, .condition m obs ∈ ops → (obs.renoise φ).NoisePSD)
    (hs : (specOps (Stheno.renoise φ ops) {}).Smooth G) : Tame G (Stheno.renoise φ ops) where
  elem o ho := by
    obtain ⟨o', ho', rfl⟩ := List.mem_map.1 ho
    exact (h.elem o' ho').renoise
  defs before o after e m d hd := by
    obtain ⟨b, o', a, e', rfl, rfl, rfl⟩ := renoise_split e
    rw [written_renoise, renoise_gps fun o ho => (h.elem o (by rw [e']; exact List.mem_append_left _ ho)).natural] at hd
    exact h.defs b o' a e' m d hd
  obs before m obs after e hm := by
    obtain ⟨b, o', a, e', rfl, ho, rfl⟩ := renoise_split e
    have hn : ∀ o ∈ b, o.Natural := fun o ho => (h.elem o (by rw [e']; exact List.mem_append_left _ ho)).natural
    cases o' <;> try (cases ho; done)
    rename_i m' obs'
    cases ho
    exact obsFits_renoise hφ hn (h.obs b m obs' a e' ((renoise_has hn).1 hm))
  noise m obs ho := by
    obtain ⟨o', ho', e⟩ := List.mem_map.1 ho
    cases o' <;> try (cases e; done)
    cases e
    exact hp _ _ ho'
  smooth := hs

/-- Programs without products. -/
def Unmultiplied (ops : List Op) : Prop := ∀ p q ord, .mul p q ord ∉ ops

theorem Fn.Plain.fixed {f : Fn} (h : f.Plain) : f.Fixed := by cases f <;> first | exact h.elim | trivial

theorem linear_reach (he : ∀ o ∈ ops, o.Elem) (hu : Unmultiplied ops) : ∀ a ∈ (specOps ops {}).ms, ∀ e ∈ a.defs, e.2.Linear := by
  intro a ha
  obtain ⟨i, hi, rfl⟩ := List.getElem_of_mem ha
  refine defs_from (fun e => e.2.Linear) ops (fun before o after e m d hd => ?_) i _ (List.getElem?_eq_getElem hi)
  have ho := he o (by rw [e]; simp)
  have hmem : o ∈ ops := by rw [e]; simp
  cases o with
  | mul => exact (hu _ _ _ hmem).elim
  | addFn p f | fmul p f => cases List.mem_singleton.1 hd; exact Fn.Plain.fixed ho
  | newMeasure | newGP | condition | getM | getK | name | gpName | enter | exit => exact absurd hd List.not_mem_nil
  | _ => cases List.mem_singleton.1 hd; trivial

/-- **The same random variables.** Without products, the values of processes do not depend on the observations. -/
theorem reading_renoise (he : ∀ o ∈ ops, o.Elem) (hu : Unmultiplied ops) (m : MId) :
    (reading (renoise φ ops)).F m = (reading ops).F m := by
  have hn : ∀ o ∈ ops, o.Natural := fun o ho => (he o ho).natural
  have wf' := (Inv.reach (renoise φ ops)).wf.ms
  unfold reading
  rw [renoise_spec hn] at wf' ⊢
  exact canon_F_renoise (Inv.reach ops).wf.ms wf' (linear_reach he hu) m

theorem smooth_renoise (h : Tame G ops) (hu : Unmultiplied ops) : (specOps (renoise φ ops) {}).Smooth G := by
  intro m a es r p d es' ha e
  have hF : (canon (specOps (renoise φ ops) {})).F m = _ := reading_renoise h.elem hu m
  rw [hF]
  have hm : (specOps (renoise φ ops) {}).ms[m]? = (specOps ops {}).ms[m]?.map (AMeas.renoise φ) := by
    rw [renoise_spec fun o ho => (h.elem o ho).natural]
    exact List.getElem?_map ..
  rw [hm] at ha
  obtain ⟨a', ha', rfl⟩ := Option.map_eq_some_iff.1 ha
  exact h.smooth m a' es r p d es' ha' e

/-- Programs with exact observations only. -/
def Exact (ops : List Op) : Prop := ∀ m pu p o, .condition m (.pseudo pu p o) ∉ ops

/-- **More noise, more variance.** In the program with more noise all variances are at least as large. -/
theorem reading_mono (h : Regular G ops) (h' : Regular G (renoise φ ops)) (hu : Unmultiplied ops) (hx : Exact ops)
    (hφ : ∀ m p x N y, .condition m (.exact p x N y) ∈ ops → ((φ.noise N).sq (numElements x) - N.sq (numElements x)).PosSemidef) (m : MId) (u : RV) :
    ((reading ops).S m).C u u ≤ ((reading (renoise φ ops)).S m).C u u := by
  have hn : ∀ o ∈ ops, o.Natural := fun o ho => (h.elem o ho).natural
  have iv := Inv.reach ops
  have iv' := Inv.reach (renoise φ ops)
  induction m using Nat.strong_induction_on generalizing u with
  | _ m ih =>
    have hm : (specOps (renoise φ ops) {}).ms[m]? = (specOps ops {}).ms[m]?.map (AMeas.renoise φ) := by
      rw [renoise_spec hn]
      exact List.getElem?_map ..
    cases ha : (specOps ops {}).ms[m]? with
    | none =>
      rw [ha] at hm
      rw [canon_S_none (by rw [ha]; rfl), canon_S_none (by rw [hm]; rfl)]
    | some a =>
      rw [ha] at hm
      cases hb : a.base with
      | none =>
        rw [canon_S_none (by rw [ha]; exact hb), canon_S_none (by rw [hm]; show (a.renoise φ).base = none; simp [AMeas.renoise, hb])]
      | some b =>
        have hb' : (a.renoise φ).base = some ⟨b.prior, b.obs.renoise φ⟩ := by simp [AMeas.renoise, hb]
        have hlt := (iv.wf.ms m a ha).base_lt b hb
        obtain ⟨before, after, e, hh, -, -⟩ := base_from ops m a b ha hb
        obtain ⟨before', after', e', hh', -, -⟩ := base_from (renoise φ ops) m _ _ hm hb'
        rw [canon_S_some iv.wf.ms ha hb, canon_S_some iv'.wf.ms hm hb']
        have hf := h.firm _ _ _ _ e hh
        have hf' := h'.firm _ _ _ _ e' hh'
        have hz := h.toTame.sized m a b ha hb
        have hz' := h'.toTame.sized m _ _ hm hb'
        have hmem : .condition b.prior b.obs ∈ ops := by rw [e]; simp
        have hF : (canon (specOps (renoise φ ops) {})).F b.prior = (canon (specOps ops {})).F b.prior := reading_renoise h.elem hu b.prior
        obtain ⟨prior, obs⟩ := b
        cases obs with
        | pseudo pu p o => exact (hx _ _ _ _ hmem).elim
        | exact p x N y =>
          simp only [Obs.renoise] at hz' hf' ⊢
          rw [SO.given_exact, SO.given_exact]
          split
          · exact ih _ hlt u
          · next hx0 =>
            obtain ⟨zs, hzs, hr, hc⟩ := hz.resolve_left hx0
            obtain ⟨zs', hzs', hr', hc'⟩ := hz'.resolve_left hx0
            have hzs'' := hzs'
            rw [hF, hzs] at hzs''
            cases hzs''
            simp only at hzs hzs'
            rw [hzs, hzs']
            have hl : zs.length = numElements x := by
              rw [← hr]
              exact (h.obs _ _ _ _ e hh).1
            refine (SO.observe_isUpdate hr hc).mono (SO.observe_isUpdate hr' hc') (hf zs hzs).1 (hf' zs hzs').1 (ih _ hlt) ?_ u
            rw [hl]
            exact hφ _ _ _ _ _ hmem

/-- **Noise that goes to a limit.** Expectations and covariances go to those of the program with the limit of the noise. -/
theorem reading_tendsto {ι : Type} {l : Filter ι} {φ : ι → Mat → Mat} (h : Regular G ops) (h' : ∀ᶠ t in l, Regular G (renoise (φ t) ops))
    (hu : Unmultiplied ops) (hx : Exact ops)
    (hφ : ∀ N i j, Filter.Tendsto (fun t => (φ t N).e i j) l (nhds (N.e i j))) (m : MId) :
    (∀ u, Filter.Tendsto (fun t => ((reading (renoise (φ t) ops)).S m).E u) l (nhds (((reading ops).S m).E u))) ∧
    ∀ u v, Filter.Tendsto (fun t => ((reading (renoise (φ t) ops)).S m).C u v) l (nhds (((reading ops).S m).C u v)) := by
  have hn : ∀ o ∈ ops, o.Natural := fun o ho => (h.elem o ho).natural
  have iv := Inv.reach ops
  induction m using Nat.strong_induction_on with
  | _ m ih =>
    have hm : ∀ t, (specOps (renoise (φ t) ops) {}).ms[m]? = (specOps ops {}).ms[m]?.map (AMeas.renoise (φ t)) := by
      intro t
      rw [renoise_spec hn]
      exact List.getElem?_map ..
    cases ha : (specOps ops {}).ms[m]? with
    | none =>
      have h1 : ∀ t, (reading (renoise (φ t) ops)).S m = so0 := fun t => canon_S_none (by rw [hm t, ha]; rfl)
      have h2 : (reading ops).S m = so0 := canon_S_none (by rw [ha]; rfl)
      simp only [h1, h2]
      exact ⟨fun u => tendsto_const_nhds, fun u v => tendsto_const_nhds⟩
    | some a =>
      cases hb : a.base with
      | none =>
        have h1 : ∀ t, (reading (renoise (φ t) ops)).S m = so0 := fun t =>
          canon_S_none (by rw [hm t, ha]; show (a.renoise (φ t)).base = none; simp [AMeas.renoise, hb])
        have h2 : (reading ops).S m = so0 := canon_S_none (by rw [ha]; exact hb)
        simp only [h1, h2]
        exact ⟨fun u => tendsto_const_nhds, fun u v => tendsto_const_nhds⟩
      | some b =>
        have hb' : ∀ t, (a.renoise (φ t)).base = some ⟨b.prior, b.obs.renoise (φ t)⟩ := fun t => by simp [AMeas.renoise, hb]
        have hlt := (iv.wf.ms m a ha).base_lt b hb
        obtain ⟨before, after, e, hh, -, -⟩ := base_from ops m a b ha hb
        have hS : (reading ops).S m = _ := canon_S_some iv.wf.ms ha hb
        have hS' : ∀ t, (reading (renoise (φ t) ops)).S m = _ := fun t => canon_S_some (Inv.reach (renoise (φ t) ops)).wf.ms
          (show _ = some (a.renoise (φ t)) by rw [hm t, ha]; rfl) (hb' t)
        have hF : ∀ t, (canon (specOps (renoise (φ t) ops) {})).F b.prior = (canon (specOps ops {})).F b.prior :=
          fun t => reading_renoise h.elem hu b.prior
        have hf := h.firm _ _ _ _ e hh
        have hz := h.toTame.sized m a b ha hb
        have hmem : .condition b.prior b.obs ∈ ops := by rw [e]; simp
        simp only [hS, hS', hF]
        obtain ⟨ihE, ihC⟩ := ih b.prior hlt
        obtain ⟨prior, obs⟩ := b
        cases obs with
        | pseudo pu p o => exact (hx _ _ _ _ hmem).elim
        | exact p x N y =>
          simp only [Obs.renoise, SO.given_exact]
          by_cases hx0 : numElements x = 0
          · simp only [hx0, if_true]
            exact ⟨ihE, ihC⟩
          · obtain ⟨zs, hzs, hr, hc⟩ := hz.resolve_left hx0
            simp only at hzs
            simp only [hx0, if_false, hzs]
            refine (SO.observe_isUpdate hr hc).tendsto (hf zs hzs).1 (hf zs hzs).2 (h'.mono fun t ht => ?_) ihE ihC (hφ N)
            have hm' : (specOps (renoise (φ t) ops) {}).ms[m]? = some (a.renoise (φ t)) := by rw [hm t, ha]; rfl
            obtain ⟨before', after', e', hh', -, -⟩ := base_from (renoise (φ t) ops) m _ _ hm' (hb' t)
            have hf' := ht.firm _ _ _ _ e' hh'
            have hz' := ht.toTame.sized m _ _ hm' (hb' t)
            simp only [Obs.renoise] at hz' hf'
            obtain ⟨zs', hzs', hr', hc'⟩ := hz'.resolve_left hx0
            have hzs'' := hzs'
            rw [hF t, hzs] at hzs''
            cases hzs''
            exact ⟨SO.observe_isUpdate hr' hc', (hf' zs hzs').1⟩

end

end Stheno
