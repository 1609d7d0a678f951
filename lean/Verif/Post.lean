import Verif.Props.Stacks

/-!
# Means and kernels of posteriors

What the means and kernels of a posterior are, given those of the measure that was conditioned, for all programs; and
what their calls return.
-/

namespace Stheno

open Matrix

/-- Conditioning `m` on `obs`, after running `before`, made the measure `m'`. -/
structure Gives (ops before : List Op) (m : MId) (obs : Obs) (m' : MId) : Prop where
  split : ∃ after, ops = before ++ .condition m obs :: after
  has : HasMeasure (runOps before {}) m
  id : m' = (runOps before {}).ms.length

section
variable {ops before : List Op} {m m' : MId} {obs : Obs} {p i j : PId} {z : Input} {noise : Mat} {y : List ℝ}

theorem Gives.state (g : Gives ops before m obs m') : ∃ a, (specOps ops {}).ms[m']? = some a ∧ a.base = some ⟨m, obs⟩ ∧
    a.basePs = members (runOps before {}) m ∧ ∀ q ∈ members (runOps before {}) m, q ∉ a.defs.map (·.1) := by
  obtain ⟨after, e⟩ := g.split
  have iv := Inv.reach before
  have hlt : m < (specOps before {}).ms.length := by rw [← iv.rel.len]; exact g.has
  obtain ⟨b, hb0⟩ : ∃ b, (specOps before {}).ms[m]? = some b := ⟨_, List.getElem?_eq_getElem hlt⟩
  have hs : specOps (before ++ [.condition m obs]) {} = (specOps before {}).cond m b obs := by
    rw [specOps_append]; exact condition_spec hb0 obs
  have h1 : (specOps (before ++ [.condition m obs]) {}).ms[m']? = some { base := some ⟨m, obs⟩, basePs := b.ps } := by
    rw [hs, g.id, iv.rel.len]; exact cond_ms_new
  obtain ⟨a, ha, hb, hps, _⟩ := ops_grow _ after h1
  have eo : before ++ [Op.condition m obs] ++ after = ops := by rw [e]; simp
  rw [eo] at ha
  rw [← iv.members hb0] at hps
  refine ⟨a, ha, hb, hps, fun q hq hd => ?_⟩
  have hn := ((Inv.reach ops).wf.ms m' a ha).nodup
  rw [AMeas.ps, knownOf, List.nodup_append] at hn
  exact hn.2.2 q (hps ▸ hq) q (by simpa using hd) rfl

theorem Gives.kernelAt_eq (g : Gives ops before m obs m') (hi : Attached (runOps before {}) m i)
    (hj : Attached (runOps before {}) m j) :
    kernelAt (runOps ops {}) m' i j = obsKernel (kernelAt (runOps ops {}) m) none obs i j := by
  obtain ⟨a, ha, hb, hps, hd⟩ := g.state
  have iv := Inv.reach ops
  rw [iv.kernelAt, kernel_eq (fun m a h => (iv.wf.ms m a h).base_lt) ha,
    show a.defs = a.defs ++ [] by simp, lookKDefs_append (hd i (mem_members.2 hi)) (hd j (mem_members.2 hj))]
  simp only [lookKDefs, AWorld.baseK, hb]
  rw [if_pos ⟨hps ▸ mem_members.2 hi, hps ▸ mem_members.2 hj⟩, (lookups_reach ops).2]

theorem Gives.meanAt_eq (g : Gives ops before m obs m') (hi : Attached (runOps before {}) m i) :
    meanAt (runOps ops {}) m' i = obsMean (meanAt (runOps ops {}) m) (kernelAt (runOps ops {}) m) none obs i := by
  obtain ⟨a, ha, hb, hps, hd⟩ := g.state
  have iv := Inv.reach ops
  rw [iv.meanAt, mean_eq (fun m a h => (iv.wf.ms m a h).base_lt) ha,
    show a.defs = a.defs ++ [] by simp, lookMDefs_append (hd i (mem_members.2 hi))]
  simp only [lookMDefs, AWorld.baseM, hb]
  rw [if_pos (hps ▸ mem_members.2 hi), (lookups_reach ops).2, (lookups_reach ops).1]

/-- The covariance matrix of the observation: `K_x` (`stheno/model/observations.py:127-141`). -/
def ObsMat (w : World) (m : MId) (p : PId) (z : Input) (noise K : Mat) : Prop :=
  ∃ A, KernelCall w m p p z z A ∧ A.add noise = some K ∧ K.r = K.c

variable {x x' : Input}

/-- Calls of kernels of posteriors: prior covariance minus what the observation explains. -/
theorem Gives.kernel_call (g : Gives ops before m (.exact p z noise y) m') (hz : numElements z ≠ 0)
    (hi : Attached (runOps before {}) m i) (hj : Attached (runOps before {}) m j) (hx : x.IsAtom) (hx' : x'.IsAtom)
    {A' : Mat} (h : KernelCall (runOps ops {}) m' i j x x' A') :
    ∃ A K B C, KernelCall (runOps ops {}) m i j x x' A ∧ ObsMat (runOps ops {}) m p z noise K ∧ (K.sq K.r).PosDef ∧
      KernelCall (runOps ops {}) m p i z x B ∧ KernelCall (runOps ops {}) m p j z x' C ∧
      B.r = K.r ∧ C.r = K.r ∧ A.r = B.c ∧ A.c = C.c ∧ A' = ⟨A.r, A.c, fun s t => A.e s t -
        ∑ a : Fin K.r, ∑ b : Fin K.r, B.e a s * (K.sq K.r)⁻¹ a b * C.e b t⟩ := by
  obtain ⟨k, n, hk, hA⟩ := h
  rw [g.kernelAt_eq hi hj] at hk
  simp only [obsKernel, hz, if_false] at hk
  obtain ⟨kij, hkij, hk⟩ := bind_some hk
  obtain ⟨kzi, hkzi, hk⟩ := bind_some hk
  obtain ⟨kzj, hkzj, hk⟩ := bind_some hk
  obtain ⟨kzz, hkzz, hk⟩ := bind_some hk
  cases hk
  cases n with
  | zero => cases hA
  | succ n =>
    have hA : stepKAtom (meanAt (runOps ops {})) (kernelAt (runOps ops {})) (ev (meanAt (runOps ops {})) (kernelAt (runOps ops {})) n) (.post kij kzi kzj z kzz noise) x x' =
        some A' := by
      cases x <;> cases x' <;> first | exact hA | exact hx.elim | exact hx'.elim
    simp only [stepKAtom] at hA
    obtain ⟨A, h1, hA⟩ := bind_some hA
    obtain ⟨K, h2, hA⟩ := bind_some hA
    obtain ⟨B, h3, hA⟩ := bind_some hA
    obtain ⟨C, h4, hA⟩ := bind_some hA
    obtain ⟨Q, h5, hA⟩ := bind_some hA
    simp only [stepKz] at h2
    obtain ⟨Kz, h6, h2⟩ := bind_some h2
    obtain ⟨K', h7, h2⟩ := bind_some h2
    split at h2
    · next hp =>
      cases h2
      unfold Mat.quad at h5
      split at h5
      · next hq =>
        cases h5
        unfold Mat.sub at hA
        split at hA
        · next hs =>
          cases hA
          exact ⟨A, K, B, C, ⟨_, _, hkij, h1⟩, ⟨Kz, ⟨_, _, hkzz, h6⟩, h7, hp.1⟩, hp.2, ⟨_, _, hkzi, h3⟩, ⟨_, _, hkzj, h4⟩,
            hq.1, hq.2, hs.1, hs.2, rfl⟩
        · cases hA
      · cases h5
    · cases h2

/-- Calls of means of posteriors. -/
theorem Gives.mean_call (g : Gives ops before m (.exact p z noise y) m') (hz : numElements z ≠ 0)
    (hi : Attached (runOps before {}) m i) (hx : x.IsAtom) {v' : List ℝ} (h : MeanCall (runOps ops {}) m' i x v') :
    ∃ v K u B, MeanCall (runOps ops {}) m i x v ∧ ObsMat (runOps ops {}) m p z noise K ∧ (K.sq K.r).PosDef ∧
      MeanCall (runOps ops {}) m p z u ∧ KernelCall (runOps ops {}) m p i z x B ∧
      u.length = K.r ∧ y.length = K.r ∧ B.r = K.r ∧ v.length = B.c ∧ v' = List.zipWith (· + ·) v
        ((List.range B.c).map fun s => ∑ a : Fin K.r, B.e a s *
          ((K.sq K.r)⁻¹ *ᵥ fun a : Fin K.r => y.getD a 0 - u.getD a 0) a) := by
  obtain ⟨k, n, hk, hA⟩ := h
  rw [g.meanAt_eq hi] at hk
  simp only [obsMean, hz, if_false] at hk
  obtain ⟨kij, hkij, hk⟩ := bind_some hk
  obtain ⟨kzi, hkzi, hk⟩ := bind_some hk
  obtain ⟨kzj, hkzj, hk⟩ := bind_some hk
  obtain ⟨kzz, hkzz, hk⟩ := bind_some hk
  cases hk
  cases n with
  | zero => cases hA
  | succ n =>
    have hA : stepM (meanAt (runOps ops {})) (ev (meanAt (runOps ops {})) (kernelAt (runOps ops {})) n) (.post kij kzi kzj z kzz noise y) x = some v' := by
      cases x <;> first | exact hA | exact hx.elim
    cases x with
    | tup => exact hx.elim
    | _ =>
      simp only [stepM] at hA
      obtain ⟨v, h1, hA⟩ := bind_some hA
      obtain ⟨K, h2, hA⟩ := bind_some hA
      obtain ⟨u, h3, hA⟩ := bind_some hA
      obtain ⟨B, h4, hA⟩ := bind_some hA
      simp only [stepKz] at h2
      obtain ⟨Kz, h6, h2⟩ := bind_some h2
      obtain ⟨K', h7, h2⟩ := bind_some h2
      split at h2
      · next hp =>
        cases h2
        split at hA
        · next hl =>
          obtain ⟨t, h5, hA⟩ := bind_some hA
          unfold Mat.tmulVec at h5
          split at h5
          · next hq =>
            cases h5
            unfold zipCol at hA
            split at hA
            · next hs =>
              cases hA
              exact ⟨v, K, u, B, ⟨_, _, hkij, h1⟩, ⟨Kz, ⟨_, _, hkzz, h6⟩, h7, hp.1⟩, hp.2, ⟨_, _, hkzi, h3⟩, ⟨_, _, hkzj, h4⟩,
                hl.1, hl.2, hq, by simpa using hs, rfl⟩
            · cases hA
          · cases h5
        · cases hA
      · cases h2

end

end Stheno
