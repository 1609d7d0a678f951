import Verif.Stable
import Verif.Update

/-!
# Positive semi-definite kernels

If the noise of all observations is positive definite, then all covariance matrices that must be inverted are positive definite, so all calls return.
-/

namespace Stheno

open Matrix

/-- Programs whose observations are made with noise of positive definite covariance. -/
def Noisy (ops : List Op) : Prop := ∀ m obs, .condition m obs ∈ ops → obs.NoisePD

/-- The covariance matrices of inducing variables are positive definite. -/
def Inducing (ops : List Op) : Prop := ∀ before m pu p o after, ops = before ++ .condition m (.pseudo pu p o) :: after →
  HasMeasure (runOps before {}) m →
  ∀ A K, KernelCall (runOps ops {}) m pu pu o.z o.z A → A.add o.noiseZ = some K → (K.sq K.r).PosDef

/-- Programs without sparse approximations. -/
theorem Inducing.of_exact {ops : List Op} (h : ∀ m pu p o, .condition m (.pseudo pu p o) ∉ ops) : Inducing ops :=
  fun before m pu p o after e => (h m pu p o (by rw [e]; simp)).elim

/-- The kernel between observed values gives their covariances. -/
theorem call_gram {w : World} {A : Mat} {x y : Input} {m : MId} {p q : PId} {S : SO RV} {zs xs : List RV}
    (hf : A.Fits (covMat S zs xs)) (hA : KernelCall w m p q x y A) (lz : zs.length = numElements x)
    (lx : xs.length = numElements y) : A.r = zs.length ∧ A.c = xs.length ∧
    ∀ i : Fin zs.length, ∀ j : Fin xs.length, A.e i j = S.C (zs.get i) (xs.get j) := by
  have hbig := hA.big
  have rA : A.r = zs.length := le_antisymm hf.r (lz.trans_le hbig.1)
  have cA : A.c = xs.length := le_antisymm hf.c (lx.trans_le hbig.2)
  refine ⟨rA, cA, fun i j => ?_⟩
  rw [hf.e rA cA i i.2 j j.2]
  show S.C (zs.getD i 0) (xs.getD j 0) = _
  simp

section
variable {G : Dom} {ops : List Op} (hr : Tame G ops)
include hr

theorem Tame.values {before after : List Op} {m : MId} {obs : Obs} {p : PId} {z : Input}
    (e : ops = before ++ .condition m obs :: after) (hm : HasMeasure (runOps before {}) m) (hs : Observable G before m p z) :
    ∃ vs, (canon (specOps ops {})).F m p z = some vs ∧ vs.length = numElements z := by
  obtain ⟨b, hb⟩ : ∃ b, (specOps ops {}).ms[m]? = some b := by
    have : m < (specOps before {}).ms.length := by rw [← (Inv.reach before).rel.len]; exact hm
    obtain ⟨a', ha', _⟩ := ops_grow before (.condition m obs :: after) (List.getElem?_eq_getElem this)
    exact ⟨a', by rw [e]; exact ha'⟩
  have hb' := hb
  rw [e] at hb'
  exact hr.state.seen (elem_reach hr.elem) hb (seen_of hb' hs)

/-- The covariance matrix of an observation. -/
theorem Tame.noisy_gram {m : MId} {p : PId} {z : Input} {vs : List RV} (hv : (canon (specOps ops {})).F m p z = some vs)
    (lv : vs.length = numElements z) {A K noise : Mat} (hA : KernelCall (runOps ops {}) m p p z z A)
    (h1 : noise.r = numElements z) (h2 : noise.c = numElements z) (hK : A.add noise = some K) : K.r = vs.length ∧
    K.sq vs.length = noisyGram ((canon (specOps ops {})).S m) vs noise := by
  obtain ⟨rA, cA, eA⟩ := call_gram ((hr.reads).kernel hA hv hv) hA lv lv
  have hK' : K = ⟨A.r, A.c, fun i j => A.e i j + noise.e i j⟩ := by
    unfold Mat.add at hK
    rw [if_pos ⟨rA.trans (lv.trans h1.symm), cA.trans (lv.trans h2.symm)⟩] at hK
    exact (Option.some.inj hK).symm
  refine ⟨by rw [hK']; exact rA, ?_⟩
  ext i j
  show K.e i j = ((canon (specOps ops {})).S m).C (vs.get i) (vs.get j) + noise.e i j
  rw [hK']
  show A.e i j + _ = _
  rw [eA]

/-- With noise of positive definite covariance on the inducing variables their covariance matrices are positive definite. -/
theorem Inducing.of_noise
    (hz : ∀ m pu p o, .condition m (.pseudo pu p o) ∈ ops → (o.noiseZ.sq (numElements o.z)).PosDef) : Inducing ops := by
  intro before m pu p o after e hm A K hA hK
  obtain ⟨-, fit, h1, -⟩ := hr.obs before m _ after e hm
  obtain ⟨zs, hv, lv⟩ := Tame.values hr e hm h1
  obtain ⟨rK, eK⟩ := Tame.noisy_gram hr hv lv hA fit.zr fit.zc hK
  rw [rK, eK]
  refine noisyGram_posDef (hr.pos m) zs ?_
  rw [lv]
  exact hz m pu p o (by rw [e]; simp)

/-- With positive semi-definite kernels and positive definite noise all calls return. -/
theorem Tame.returning (hn : Noisy ops) (hi : Inducing ops) : Returning G ops where
  toTame := hr
  pd before m obs after e hm := by
    have hobs := hr.obs before m _ after e hm
    have hno := hn m obs (by rw [e]; simp)
    have hpos := hr.pos m
    cases obs with
    | exact p z noise y =>
      intro A K hA hK
      obtain ⟨h1, h2, h3, hs⟩ := hobs
      obtain ⟨vs, hv, lv⟩ := Tame.values hr e hm hs
      obtain ⟨rK, eK⟩ := Tame.noisy_gram hr hv lv hA h1 h2 hK
      rw [rK, eK]
      refine noisyGram_posDef hpos vs ?_
      rw [lv]
      exact hno
    | pseudo pu p o =>
      intro A K Z u hA hK hZ hu lu
      have hpd := hi before m pu p o after e hm A K hA hK
      refine ⟨hpd, fun j => ?_⟩
      obtain ⟨-, fit, h1, h2⟩ := hobs
      obtain ⟨zs, hz, lz⟩ := Tame.values hr e hm h1
      obtain ⟨xs, hx, lx⟩ := Tame.values hr e hm h2
      obtain ⟨rK, eK⟩ := Tame.noisy_gram hr hz lz hA fit.zr fit.zc hK
      obtain ⟨rZ, cZ, eZ⟩ := call_gram ((hr.reads).kernel hZ hz hx) hZ lz lx
      refine knDiag_pos hpos (fit.zr.trans lz.symm) (fit.zc.trans lz.symm) (by rw [lz]; exact hno.1) (by rw [lx]; exact hno.2)
        rK cZ eK eZ (fun j => ?_) hpd j
      have := ((hr.reads).elwise hu hx hx).e (lu.trans cZ) (lu.trans cZ) j j.2
      rw [List.getD_eq_getElem?_getD, this]
      show ((canon (specOps ops {})).S m).C (xs.getD j 0) (xs.getD j 0) = _
      simp

end

end Stheno
