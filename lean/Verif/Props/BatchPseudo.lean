import Verif.BatchPseudo
import Verif.Props.BatchFdd
import Verif.Props.Cache

/-!
# Pseudo-observations for batches

C75: pseudo-observations that are made from batches, and their ELBOs, optimal means and kernel matrices, are those of every index of the batch.
-/

namespace Stheno

open Ten Matrix

namespace Bat

variable {d s u : List ℕ} {ops os : List BOp} {ord ord' : List MId} {m : MId} {pu p : PId} {o : BPseudo} {as : List BArg} {D : BData} {R : BOut}

/-! ### Making pseudo-observations -/

/-- The first argument at an index of the batch. -/
def BUArg.at' (d : List ℕ) : BUArg → UArg
  | .one f => .one (f.at' d)
  | .many fs => .many (fs.map (·.at' d))

/-- FDDs of inducing points that are combined have at least two rows in total. -/
def BUArg.Wide : BUArg → Prop
  | .one _ => True
  | .many fs => Bat.Wide fs

theorem mkU_at {us : BUArg} {f : BFdd} (w : BWorld) (e : mkU w ord us = some (os, f)) (hu : us.Wide) (d : List ℕ) :
    Stheno.mkU (w.at' d) ord (us.at' d) = some (os.map (·.at' d), f.at' d) := by
  cases us with
  | one f =>
    cases e
    rfl
  | many fs =>
    obtain ⟨⟨o, f⟩, h1, h2⟩ := Option.bind_eq_some_iff.1 e
    cases h2
    have := combine_at w d ord (combine_some h1).1 hu
    rw [h1] at this
    simp only [BUArg.at', Stheno.mkU, this]
    rfl

/-- **C75.** Making pseudo-observations from FDDs and values at batches of inputs, in all notations, performs operations and returns observations that are at every index
those of this index. -/
theorem C75_make {us : BUArg} {b : BObs} {μ : Method} {g : Bool} (ops : List BOp) (n : ℕ) (e : mkPseudo (runOps ops {}) ord ord' μ g us as = some (os, b)) (hu : us.Wide)
    (hf : Fine u as) (hd : In d u) :
    Stheno.mkPseudo (Stheno.runOps (ops.map (·.at' d)) {}) n ord ord' μ g (us.at' d) (as.map (·.at' d)) = some (os.map (·.at' d), b.at' d) := by
  rw [← C72_state]
  obtain ⟨⟨os1, f⟩, h1, e1⟩ := Option.bind_eq_some_iff.1 e
  obtain ⟨⟨os2, b'⟩, h2, e2⟩ := Option.bind_eq_some_iff.1 e1
  have k1 := mkU_at (runOps ops {}) h1 hu d
  have k2 := mkObs_at (runOps os1 (runOps ops {})) n h2 hf hd
  rw [(runOps_at (fun o _ => Keep.any_Op o) (Keep.any_W _)).2] at k2
  cases b' with
  | pseudo _ _ _ => cases e2
  | exact p x noise y =>
    cases e2
    simp only [Stheno.mkPseudo, k1, k2, Option.bind_eq_bind, Option.bind_some, BObs.at', List.map_append]
    rfl

/-! ### What is computed -/

theorem colList_eq {t : Ten ℝ} {r : ℕ} {v : List ℝ} (h1 : v.length = r) (h2 : ∀ i < r, v[i]? = some (t.get (0 :: i :: d))) : v = t.colList r d := by
  refine List.ext_getElem? fun i => ?_
  by_cases hi : i < r
  · rw [h2 i hi, colList, List.getElem?_map, List.getElem?_range hi]
    rfl
  · rw [List.getElem?_eq_none (by omega), List.getElem?_eq_none (by rw [colList_length]; omega)]

theorem take_two {a b : ℕ} {l : List ℕ} (h : l.take 2 = [a, b]) : ∃ s, l = a :: b :: s := by
  match l with
  | [] | [_] => cases h
  | a' :: b' :: s =>
    cases h
    exact ⟨s, rfl⟩

section
variable (h : ∀ o ∈ ops, (Keep.fits u).Op o)
include h

theorem partY_at (ho : o.Fits u) (e : ComputeCall (runOps ops {}) pu p o m D R) : ∃ n k bz, D.Sized n k bz u ∧ ∀ d, In d u → ∃ K,
    SameAt D.Kz n n d K ∧ (∃ Z, partK (Stheno.runOps (ops.map (·.at' d)) {}) pu p (o.at' d) m = some (Z, K)) ∧
    partG (Stheno.runOps (ops.map (·.at' d)) {}) pu p (o.at' d) m = some ⟨n, k, D.Kz.mat n n d, D.Kzx.mat n k d, D.kx.col k d 0, fun j => D.noise.get (j :: d)⟩ ∧
    partY (Stheno.runOps (ops.map (·.at' d)) {}) pu p (o.at' d) m =
      some (⟨n, k, D.Kz.mat n n d, D.Kzx.mat n k d, D.kx.col k d 0, fun j => D.noise.get (j :: d)⟩, D.mx.colList k d, D.mz.colList n d) := by
  obtain ⟨A, hA, hK⟩ := e.Kz
  obtain ⟨n, k, bz, bx, bn, s1, s2, s3, s4, s5, s6, s7, hp⟩ := e.sizes
  obtain ⟨ra, ca, ba, a1, a2, a3⟩ := C72_kernel h ho.z ho.z hA
  obtain ⟨rz, cz, bz', z1, z2, z3⟩ := C72_kernel h ho.z ho.x e.Kzx
  obtain ⟨rx, bmx, x1, x2, x3⟩ := C72_mean h ho.x e.mx
  obtain ⟨rm, bmz, m1, m2, m3⟩ := C72_mean h ho.z e.mz
  rw [z1] at s2
  rw [x1] at s5
  rw [m1] at s6
  simp only [List.cons.injEq, List.take_succ_cons, List.take_zero, true_and, and_true] at s2 s5 s6
  obtain ⟨rfl, rfl, rfl⟩ := s2
  obtain rfl := s5.symm
  obtain rfl := s6.symm
  obtain ⟨by', y1⟩ := take_two s7
  obtain ⟨bk, k1⟩ := take_two s3
  have hy : o.y.nrows = cz := by rw [nrows, ← e.y, y1]; rfl
  have hyf : Ten.Fits by' u := by
    have := ho.y
    rw [batch, ← e.y, y1] at this
    exact this
  obtain ⟨c, r, t, n1, n2⟩ : ∃ c r t, o.noiseZ.shape = c :: r :: t ∧ Ten.Fits t u := by
    match hs : o.noiseZ.shape with
    | c :: r :: t => exact ⟨c, r, t, rfl, by have := ho.noiseZ; rw [hs] at this; exact this⟩
    | [] | [_] =>
      unfold bin at hK
      rw [hs, a1] at hK
      cases hK
  obtain ⟨rfl, rfl, ⟨v, v1, v2⟩, v3⟩ := bin_inv a1 n1 hK a2 n2
  rw [v1] at s1
  simp only [List.cons.injEq] at s1
  obtain ⟨rfl, rfl, rfl⟩ := s1
  obtain ⟨N1, N2⟩ : (∃ t, o.noiseX.shape = cz :: cz :: t ∧ Ten.Fits t u ∧ D.noise.shape = cz :: t) ∧ ∀ (i : ℕ) d, D.noise.get (i :: d) = o.noiseX.get (i :: i :: d) := by
    have hn := e.noise
    have hN : ∃ c t, o.noiseX.shape = c :: c :: t := by
      unfold Ten.diag at hn
      split at hn
      · next c r t hs =>
        split at hn
        · next h => exact ⟨c, t, by rw [hs, h]⟩
        · cases hn
      · cases hn
    obtain ⟨c', t', hN⟩ := hN
    obtain ⟨q, q1, q2, q3⟩ := diag_some hN
    cases hn.symm.trans q1
    rw [q2] at s4
    simp only [List.cons.injEq] at s4
    obtain ⟨rfl, rfl⟩ := s4
    have := ho.noiseX
    rw [hN] at this
    exact ⟨⟨t', hN, this, q2⟩, q3⟩
  obtain ⟨tn, t1, t2, t3⟩ := N1
  have hkx : Ten.Fits bk u ∧ ∀ d, In d u → kxDiag (Stheno.runOps (ops.map (·.at' d)) {}) p (o.at' d) m cz = some (D.kx.col cz d 0) := by
    by_cases hm : o.method = .dtc
    · have hk := e.dtc hm
      rw [s3] at hk
      rw [hk] at k1
      cases k1
      refine ⟨.nil u, fun d _ => ?_⟩
      unfold kxDiag
      rw [show (o.at' d).method = .dtc from hm]
      simp only
      rw [hk]
      rfl
    · obtain ⟨re, be, e1, e2, e3⟩ := C72_elwise h ho.x ho.x (e.kx hm)
      rw [e1] at k1
      simp only [List.cons.injEq, true_and] at k1
      obtain ⟨rfl, rfl⟩ := k1
      refine ⟨e2, fun d hd => ?_⟩
      obtain ⟨v, w1, w2, w3⟩ := e3 d hd
      have hv := colList_eq w2 w3
      have key : ((callD (Stheno.runOps (ops.map (·.at' d)) {}) m p p (o.x.at' d) (o.x.at' d)).bind fun v =>
          if v.length = re then some fun j : Fin re => v.getD j 0 else none) = some (D.kx.col re d 0) := by
        rw [callD_iff.2 w1, Option.bind_some, if_pos w2]
        congr 1
        funext j
        rw [hv]
        exact colList_getD _ j.2 d
      unfold kxDiag
      obtain ⟨μ, z, nz, x, nx, b, y⟩ := o
      cases μ with
      | vfe => exact key
      | fitc => exact key
      | dtc => exact absurd rfl hm
  have hD : D.Sized r cz v u := ⟨v1, v2, ⟨_, z1, z2⟩, ⟨bk, k1, hkx.1⟩, ⟨tn, t3, t2⟩, ⟨_, x1, x2⟩, ⟨_, m1, m2⟩, ⟨by', y1, hyf⟩⟩
  refine ⟨r, cz, v, hD, fun d hd => ?_⟩
  obtain ⟨A', A1, A2, A3, A4⟩ := a3 d hd
  obtain ⟨Z, Z1, Z2, Z3, Z4⟩ := z3 d hd
  obtain ⟨vx, X1, X2, X3⟩ := x3 d hd
  obtain ⟨vz, M1, M2, M3⟩ := m3 d hd
  obtain ⟨Ar, Ac, Ae⟩ := A'
  obtain ⟨Zr, Zc, Ze⟩ := Z
  simp only at A2 A3 A4 Z2 Z3 Z4
  obtain rfl := A2.symm
  obtain rfl := A3.symm
  obtain rfl := Z2.symm
  obtain rfl := Z3.symm
  have hadd : (Mat.mk r r Ae).add (o.noiseZ.toMat d) = some ⟨r, r, fun i j => Ae i j + (o.noiseZ.toMat d).e i j⟩ := if_pos ⟨by simp [toMat, n1], by simp [toMat, n1]⟩
  have same : SameAt D.Kz r r d ⟨r, r, fun i j => Ae i j + (o.noiseZ.toMat d).e i j⟩ := by
    refine ⟨rfl, rfl, fun i hi j hj => ?_⟩
    rw [v3, ← A4 i hi j hj]
    rfl
  have eA := same.sq
  have eB : (Mat.mk r cz Ze).rect r = D.Kzx.mat r cz d := by
    funext i j
    exact Z4 i i.2 j j.2
  have eN : (fun j : Fin cz => (o.noiseX.toMat d).e j j) = fun j : Fin cz => D.noise.get ((j : ℕ) :: d) := by
    funext j
    rw [N2]
    rfl
  have hK' : partK (Stheno.runOps (ops.map (·.at' d)) {}) pu p (o.at' d) m = some (⟨r, cz, Ze⟩, ⟨r, r, fun i j => Ae i j + (o.noiseZ.toMat d).e i j⟩) := by
    unfold partK
    rw [show callK (Stheno.runOps (ops.map (·.at' d)) {}) m pu p (o.at' d).z (o.at' d).x = _ from callK_iff.2 Z1]
    simp only [Option.bind_eq_bind, Option.bind_some]
    rw [show callK (Stheno.runOps (ops.map (·.at' d)) {}) m pu pu (o.at' d).z (o.at' d).z = _ from callK_iff.2 A1]
    simp only [Option.bind_some]
    rw [show (Mat.mk r r Ae).add (o.at' d).noiseZ = _ from hadd]
    rfl
  have hpd : (D.Kz.mat r r d).PosDef := by
    have := hp _ (v2.within hd)
    rwa [mat_clip v1 (Below.refl v)] at this
  have hG : partG (Stheno.runOps (ops.map (·.at' d)) {}) pu p (o.at' d) m = some ⟨r, cz, D.Kz.mat r r d, D.Kzx.mat r cz d, D.kx.col cz d 0, fun j => D.noise.get (j :: d)⟩ := by
    unfold partG
    rw [hK']
    simp only [Option.bind_eq_bind, Option.bind_some]
    rw [if_pos ⟨e.diag, ⟨rfl, by rw [eA]; exact hpd⟩, rfl, by simp [BPseudo.at', toMat, t1], by simp [BPseudo.at', toMat, t1]⟩]
    rw [hkx.2 d hd]
    simp only [Option.bind_some]
    rw [eA, eB, show (fun j : Fin cz => (o.at' d).noiseX.mat.e j j) = _ from eN, if_pos]
    obtain ⟨Lz, W, Kn, tr, hL, hW, hKn, hpos⟩ := e.pos
    have hKz : Mats v u D.Kz r r (D.Kz.mat r r) := ⟨v, v1, .refl _, v2, fun _ => rfl⟩
    obtain ⟨Lz', L1, L2⟩ := hKz.on fun _ A => chol A
    obtain rfl := Option.some.inj (hL.symm.trans L1)
    obtain ⟨W', W1, W2⟩ := L2.solve (mats_of hD.Kzx)
    obtain rfl := Option.some.inj (hW.symm.trans W1)
    obtain ⟨Kn', tr', k1', ⟨sn, n1', -, n2', n3'⟩, -⟩ := hD.noiseTrace o.method W2
    obtain ⟨rfl, rfl⟩ := Prod.mk.inj (Option.some.inj (hKn.symm.trans k1'))
    intro j
    refine lt_of_lt_of_eq ?_ (n3' d j)
    refine hpos _ ?_
    rw [n1']
    refine .cons ?_ (n2'.within hd)
    have := j.2
    split <;> omega
  refine ⟨_, same, ⟨_, hK'⟩, hG, ?_⟩
  unfold partY
  rw [hG]
  simp only [Option.bind_eq_bind, Option.bind_some]
  rw [show callM (Stheno.runOps (ops.map (·.at' d)) {}) m p (o.at' d).x = _ from callM_iff.2 X1]
  simp only [Option.bind_some]
  rw [if_pos ⟨X2, by rw [BPseudo.at', colList_length, hy]⟩]
  rw [show callM (Stheno.runOps (ops.map (·.at' d)) {}) m pu (o.at' d).z = _ from callM_iff.2 M1]
  simp only [Option.bind_some]
  rw [if_pos M2, colList_eq X2 X3, colList_eq M2 M3]

/-- **C75.** Everything that pseudo-observations compute for a batch is what they compute at every index of the batch: the ELBO, the optimal mean, the kernel matrix of the inducing
points and the corrective variance. The ELBO has the batch dimensions of the matrices, up to broadcasting. -/
theorem C75_compute (ho : o.Fits u) (e : ComputeCall (runOps ops {}) pu p o m D R) : Ten.Fits R.elbo.shape u ∧ ∃ n, ∀ d, In d u →
    let w := Stheno.runOps (ops.map (·.at' d)) {}
    (getElbo w pu p (o.at' d) m {}).2 = some (R.elbo.get d) ∧ (getMu w pu p (o.at' d) m {}).2 = some (R.mu.colList n d) ∧
    (∃ K, (getKz w pu p (o.at' d) m {}).2 = some K ∧ SameAt D.Kz n n d K) ∧ ∃ A, (getA w pu p (o.at' d) m {}).2 = some A ∧ SameAt R.A n n d A := by
  obtain ⟨n, k, bz, hD, hv⟩ := partY_at h ho e
  obtain ⟨R', r1, -, -, -, r3, r4⟩ := BData.C70_compute o.method hD
  obtain rfl := Option.some.inj (e.ret.symm.trans r1)
  refine ⟨r3, n, fun d hd => ?_⟩
  obtain ⟨K, K1, ⟨Z, hK⟩, hG, hY⟩ := hv d hd
  obtain ⟨q1, q2, q3⟩ := r4 d
  have hy : o.y.nrows = k := by
    obtain ⟨t, ht, -⟩ := hD.y
    rw [nrows, ← e.y, ht]
    rfl
  have ey : (fun j : Fin k => (o.at' d).y.getD j 0 - (D.mx.colList k d).getD j 0) = fun j : Fin k => D.y.uprank.col k d 0 j - D.mx.col k d 0 j := by
    funext j
    rw [colList_getD _ j.2]
    congr 1
    rw [e.y]
    exact colList_getD _ (by rw [hy]; exact j.2) d
  refine ⟨?_, ?_, ⟨K, ?_, K1⟩, Mat.ofSq (subspaceA o.method (D.Kz.mat n n d) (D.Kzx.mat n k d) (D.kx.col k d 0) fun j => D.noise.get (j :: d)), ?_, rfl, rfl, ?_⟩
  · rw [(RightP.empty _ _ _ _).get_elbo, hY, Option.map_some, q3]
    unfold valElbo
    simp only [ey]
    rfl
  · rw [(RightP.empty _ _ _ _).get_mu, hY, Option.map_some]
    congr 1
    unfold valMu
    simp only [ey]
    refine List.ext_getElem (by simp [colList_length]) fun i h1 h2 => ?_
    have hi : i < n := by simpa using h1
    have := q2 ⟨i, hi⟩
    simp only [List.getElem_ofFn]
    rw [colList_getD _ hi]
    refine Eq.trans ?_ (Eq.trans this.symm ?_)
    · rfl
    · simp [colList, Ten.col]
  · unfold getKz Mut.cached
    dsimp only
    rw [compute_eq, hY, hK]
    simp [Dict.put, Dict.set]
  · unfold getA Mut.cached
    dsimp only
    rw [compute_eq, hY, hG]
    simp [Dict.put, Dict.set, valA, BPseudo.at']
  · intro i hi j hj
    rw [show (Mat.ofSq _).e i j = _ from dif_pos ⟨hi, hj⟩, ← q1]
    rfl

/-- **C75.** `measure.logpdf` of pseudo-observations for a batch is at every index the log-density of the pseudo-observations at this index, which is their ELBO. -/
theorem C75_logpdf {t : Ten ℝ} {b : BObs} (hb : b.Fits u) (e : PseudoLogpdf (runOps ops {}) m b t) : Ten.Fits t.shape u ∧
    ∀ d, In d u → logpdfPseudo (Stheno.runOps (ops.map (·.at' d)) {}) m {} (b.at' d) = some (t.get d) := by
  cases b with
  | exact _ _ _ _ => exact e.elim
  | pseudo pu p o =>
    obtain ⟨D, R, e, rfl⟩ := e
    obtain ⟨h1, n, h2⟩ := C75_compute h hb e
    exact ⟨h1, fun d hd => (h2 d hd).1⟩

end

/-- What the computation at an index did. -/
theorem partY_inv {w : World} {o : PseudoData} {t : Ingredients × List ℝ × List ℝ} (e : partY w pu p o m = some t) : ∃ Z A K kx mx mz, Stheno.KernelCall w m pu p o.z o.x Z ∧
    Stheno.KernelCall w m pu pu o.z o.z A ∧ A.add o.noiseZ = some K ∧ o.noiseX.isDiagonal = true ∧ (K.r = K.c ∧ (K.sq K.r).PosDef) ∧
    (Z.r = K.r ∧ o.noiseX.mat.r = Z.c ∧ o.noiseX.mat.c = Z.c) ∧ kxDiag w p o m Z.c = some kx ∧
    (∀ j, 0 < knDiag o.method (K.sq K.r) (Z.rect K.r) kx (fun j => o.noiseX.mat.e j j) j) ∧ Stheno.MeanCall w m p o.x mx ∧ Stheno.MeanCall w m pu o.z mz ∧ mx.length = Z.c ∧
    o.y.length = Z.c ∧ mz.length = K.r := by
  obtain ⟨g, hg, e⟩ := Option.bind_eq_some_iff.1 e
  obtain ⟨mx, hx, e⟩ := Option.bind_eq_some_iff.1 e
  obtain ⟨⟨Z, K⟩, hK, hg⟩ := Option.bind_eq_some_iff.1 hg
  obtain ⟨Z', hZ, hK⟩ := Option.bind_eq_some_iff.1 hK
  obtain ⟨A, hA, hK⟩ := Option.bind_eq_some_iff.1 hK
  obtain ⟨K', hK', hK⟩ := Option.bind_eq_some_iff.1 hK
  cases hK
  dsimp only at hg
  split at hg
  swap
  · cases hg
  next c =>
  obtain ⟨kx, hkx, hg⟩ := Option.bind_eq_some_iff.1 hg
  split at hg
  swap
  · cases hg
  next c' =>
  cases hg
  split at e
  swap
  · cases e
  next l =>
  obtain ⟨mz, hz, e⟩ := Option.bind_eq_some_iff.1 e
  split at e
  swap
  · cases e
  next l' =>
  exact ⟨Z, A, K, kx, mx, mz, callK_iff.1 hZ, callK_iff.1 hA, hK', c.1, c.2.1, c.2.2, hkx, c', callM_iff.1 hx, callM_iff.1 hz, l.1, l.2, l'⟩

/-- **C75.** If the inputs of all observations and of the pseudo-observations have the batch dimensions `s`, then the ELBO is computed if it can be computed at all indices. There is
one for every index. -/
theorem C75_returns (hs : ∃ d, In d s) (h : ∀ o ∈ ops, (Keep.is s).Op o) (ho : o.Is s)
    (e : ∀ d, In d s → ∃ r, (getElbo (Stheno.runOps (ops.map (·.at' d)) {}) pu p (o.at' d) m {}).2 = some r) :
    ∃ D R, ComputeCall (runOps ops {}) pu p o m D R ∧ R.elbo.shape = s := by
  have H0 : ∀ d, In d s → ∃ t, partY (Stheno.runOps (ops.map (·.at' d)) {}) pu p (o.at' d) m = some t := fun d hd => by
    obtain ⟨r, hr⟩ := e d hd
    rw [(RightP.empty _ _ _ _).get_elbo] at hr
    obtain ⟨t, ht, -⟩ := Option.map_eq_some_iff.1 hr
    exact ⟨t, ht⟩
  have H := fun d hd => partY_inv (H0 d hd).choose_spec
  clear e H0
  have h' : ∀ o ∈ ops, (Keep.fits s).Op o := fun o ho => Keep.is_fits (h o ho)
  obtain ⟨d0, h0⟩ := hs
  obtain ⟨Z, rz, cz, Z1, Z2, -⟩ := C72_kernel_returns (m := m) (p := pu) (q := p) ⟨d0, h0⟩ h ho.z ho.x fun d hd => by
    obtain ⟨Z, A, K, kx, mx, mz, i1, i2, i3, i4, i5, i6, i7, i8, i9, i10, i11, i12, i13⟩ := H d hd
    exact ⟨Z, i1⟩
  obtain ⟨A, ra, ca, A1, A2, -⟩ := C72_kernel_returns (m := m) (p := pu) (q := pu) ⟨d0, h0⟩ h ho.z ho.z fun d hd => by
    obtain ⟨Z, A, K, kx, mx, mz, i1, i2, i3, i4, i5, i6, i7, i8, i9, i10, i11, i12, i13⟩ := H d hd
    exact ⟨A, i2⟩
  obtain ⟨mx, rx, X1, X2, -⟩ := C72_mean_returns (m := m) (p := p) ⟨d0, h0⟩ h ho.x fun d hd => by
    obtain ⟨Z, A, K, kx, mx, mz, i1, i2, i3, i4, i5, i6, i7, i8, i9, i10, i11, i12, i13⟩ := H d hd
    exact ⟨mx, i9⟩
  obtain ⟨mz, rm, M1, M2, -⟩ := C72_mean_returns (m := m) (p := pu) ⟨d0, h0⟩ h ho.z fun d hd => by
    obtain ⟨Z, A, K, kx, mx, mz, i1, i2, i3, i4, i5, i6, i7, i8, i9, i10, i11, i12, i13⟩ := H d hd
    exact ⟨mz, i10⟩
  -- what the arrays are at the indices
  have Z3 : ∀ d, In d s → ∀ B, Stheno.KernelCall (Stheno.runOps (ops.map (·.at' d)) {}) m pu p (o.z.at' d) (o.x.at' d) B → SameAt Z rz cz d B := by
    obtain ⟨r, c, b, q1, q2, q3⟩ := C72_kernel h' ho.fits.z ho.fits.x Z1
    cases q1.symm.trans Z2
    intro d hd B hB
    obtain ⟨B', k1, k2⟩ := q3 d hd
    rw [hB.unique k1]
    exact k2
  have A3 : ∀ d, In d s → ∀ B, Stheno.KernelCall (Stheno.runOps (ops.map (·.at' d)) {}) m pu pu (o.z.at' d) (o.z.at' d) B → SameAt A ra ca d B := by
    obtain ⟨r, c, b, q1, q2, q3⟩ := C72_kernel h' ho.fits.z ho.fits.z A1
    cases q1.symm.trans A2
    intro d hd B hB
    obtain ⟨B', k1, k2⟩ := q3 d hd
    rw [hB.unique k1]
    exact k2
  have X3 : ∀ d, In d s → ∀ v, Stheno.MeanCall (Stheno.runOps (ops.map (·.at' d)) {}) m p (o.x.at' d) v → v.length = rx := by
    obtain ⟨r, b, q1, q2, q3⟩ := C72_mean h' ho.fits.x X1
    cases q1.symm.trans X2
    intro d hd v hv
    obtain ⟨v', k1, k2, -⟩ := q3 d hd
    rw [hv.unique k1]
    exact k2
  have M3 : ∀ d, In d s → ∀ v, Stheno.MeanCall (Stheno.runOps (ops.map (·.at' d)) {}) m pu (o.z.at' d) v → v.length = rm := by
    obtain ⟨r, b, q1, q2, q3⟩ := C72_mean h' ho.fits.z M1
    cases q1.symm.trans M2
    intro d hd v hv
    obtain ⟨v', k1, k2, -⟩ := q3 d hd
    rw [hv.unique k1]
    exact k2
  obtain ⟨nr, nc, nb, n1, n2⟩ := ho.noiseZ
  obtain ⟨kr, kc, kb, k1, k2⟩ := ho.noiseX
  -- the sizes
  have sizes : ra = ca ∧ ra = nr ∧ ra = nc ∧ ra = rz ∧ cz = kr ∧ cz = kc ∧ cz = rx ∧ ra = rm ∧ o.y.nrows = cz := by
    obtain ⟨Z, A, K, kx, mx, mz, i1, i2, i3, i4, i5, i6, i7, i8, i9, i10, i11, i12, i13⟩ := H d0 h0
    obtain ⟨z1, z2, -⟩ := Z3 d0 h0 Z i1
    obtain ⟨a1, a2, -⟩ := A3 d0 h0 A i2
    have x1 := X3 d0 h0 mx i9
    have m1 := M3 d0 h0 mz i10
    obtain ⟨q1, q2, q3, q4⟩ := Mat.add_inv i3
    have e1 : (o.at' d0).noiseZ.r = nr := by simp [BPseudo.at', toMat, n1]
    have e2 : (o.at' d0).noiseZ.c = nc := by simp [BPseudo.at', toMat, n1]
    have e3 : (o.at' d0).noiseX.mat.r = kr := by simp [BPseudo.at', toMat, k1]
    have e4 : (o.at' d0).noiseX.mat.c = kc := by simp [BPseudo.at', toMat, k1]
    have e5 : (o.at' d0).y.length = o.y.nrows := by rw [BPseudo.at', colList_length]
    obtain ⟨i5, -⟩ := i5
    obtain ⟨j1, j2, j3⟩ := i6
    refine ⟨?_, ?_, ?_, ?_, ?_, ?_, ?_, ?_, ?_⟩ <;> omega
  obtain ⟨rfl, rfl, rfl, rfl, rfl, rfl, rfl, rfl, hy⟩ := sizes
  obtain ⟨K, K1, K2⟩ := bin_ok (f := (· + ·)) A2 n1 n2
  obtain ⟨-, -, -, hg⟩ := bin_inv A2 n1 K1 (.refl s) n2
  have hS : ∀ d, In d s → ∀ A' B, Stheno.KernelCall (Stheno.runOps (ops.map (·.at' d)) {}) m pu pu (o.z.at' d) (o.z.at' d) A' → A'.add (o.noiseZ.toMat d) = some B → SameAt K ra ra d B := by
    intro d hd A' B hA hB
    obtain ⟨a1, a2, a3⟩ := A3 d hd A' hA
    obtain ⟨q1, q2, q3, q4⟩ := Mat.add_inv hB
    refine ⟨q3.trans a1, q4.trans a2, fun i hi j hj => ?_⟩
    unfold Mat.add at hB
    rw [if_pos ⟨q1, q2⟩] at hB
    cases hB
    simp only
    rw [a3 i hi j hj, hg]
    rfl
  obtain ⟨noise, d1, d2, d3⟩ := diag_some k1
  have hyf : ∃ b, o.y.uprank.shape = 1 :: cz :: b ∧ Ten.Fits b s := ⟨o.y.batch, by rw [uprank_shape, ho.y.1, hy], ho.y.2⟩
  obtain ⟨kx, x1, x2, x3, x4⟩ : ∃ kx : Ten ℝ, (o.method ≠ .dtc → ElwiseCall (runOps ops {}) m p p o.x o.x kx) ∧ (o.method = .dtc → kx = ⟨kx.shape.take 2, fun _ => 0⟩) ∧
      (∃ b, kx.shape = 1 :: cz :: b ∧ Ten.Fits b s) ∧
      ∀ d, In d s → ∀ v, kxDiag (Stheno.runOps (ops.map (·.at' d)) {}) p (o.at' d) m cz = some v → v = kx.col cz d 0 := by
    by_cases hm : o.method = .dtc
    · refine ⟨⟨[1, cz], fun _ => 0⟩, fun h => absurd hm h, fun _ => rfl, ⟨[], rfl, .nil s⟩, fun d hd v hv => ?_⟩
      unfold kxDiag at hv
      rw [show (o.at' d).method = .dtc from hm] at hv
      cases hv
      rfl
    · have key : ∀ d k v, kxDiag (Stheno.runOps (ops.map (·.at' d)) {}) p (o.at' d) m k = some v →
          ∃ l, Stheno.ElwiseCall (Stheno.runOps (ops.map (·.at' d)) {}) m p p (o.x.at' d) (o.x.at' d) l ∧ l.length = k ∧ v = fun j : Fin k => l.getD j 0 := by
        intro d k v hv
        have hv' : ((callD (Stheno.runOps (ops.map (·.at' d)) {}) m p p (o.x.at' d) (o.x.at' d)).bind fun v =>
            if v.length = k then some fun j : Fin k => v.getD j 0 else none) = some v := by
          rw [← hv]
          obtain ⟨μ, z, nz, x, nx, b, y⟩ := o
          cases μ with
          | vfe => rfl
          | fitc => rfl
          | dtc => exact absurd rfl hm
        obtain ⟨l, h1, h2⟩ := Option.bind_eq_some_iff.1 hv'
        split at h2
        · next h3 => exact ⟨l, callD_iff.1 h1, h3, (Option.some.inj h2).symm⟩
        · cases h2
      obtain ⟨E, re, E1, E2, -⟩ := C72_elwise_returns (m := m) (p := p) (q := p) ⟨d0, h0⟩ h ho.x ho.x fun d hd => by
        obtain ⟨Z, A, K, kx, mx, mz, i1, i2, i3, i4, i5, i6, i7, i8, i9, i10, i11, i12, i13⟩ := H d hd
        exact (key d _ _ i7).imp fun l hl => hl.1
      obtain ⟨re', be, e1, e2, e3⟩ := C72_elwise h' ho.fits.x ho.fits.x E1
      cases e1.symm.trans E2
      have hre : re = cz := by
        obtain ⟨Z', A, K, kx, mx, mz, i1, i2, i3, i4, i5, i6, i7, i8, i9, i10, i11, i12, i13⟩ := H d0 h0
        obtain ⟨l, l1, l2, -⟩ := key d0 _ _ i7
        obtain ⟨l', j1, j2, -⟩ := e3 d0 h0
        rw [← j2, ← l1.unique j1, l2]
        exact (Z3 d0 h0 Z' i1).2.1
      subst hre
      refine ⟨E, fun _ => E1, fun h => absurd h hm, ⟨s, E2, .refl s⟩, fun d hd v hv => ?_⟩
      obtain ⟨l, l1, l2, rfl⟩ := key d _ _ hv
      obtain ⟨l', j1, j2, j3⟩ := e3 d hd
      cases l1.unique j1
      funext j
      rw [colList_eq j2 j3]
      exact colList_getD _ j.2 d
  have hD : BData.Sized ⟨K, Z, kx, noise, mx, mz, o.y⟩ ra cz s s := ⟨K2, .refl s, ⟨s, Z2, .refl s⟩, x3, ⟨kb, d2, k2⟩, ⟨s, X2, .refl s⟩, ⟨s, M2, .refl s⟩, hyf⟩
  obtain ⟨R, R1, -, -, R2⟩ := BData.C70_shapes o.method hD
  refine ⟨⟨K, Z, kx, noise, mx, mz, o.y⟩, R, ⟨Z1, ⟨A, A1, K1⟩, ?_, x1, x2, d1, X1, M1, rfl, ⟨ra, cz, s, s, kb, K2, Z2, ?_, d2, ?_, ?_, ?_, fun d hd => ?_⟩, ?_, R1⟩, R2⟩
  · obtain ⟨Z', A, K, kx, mx, mz, i1, i2, i3, i4, i5, i6, i7, i8, i9, i10, i11, i12, i13⟩ := H d0 h0
    exact i4
  · obtain ⟨b, hb, -⟩ := x3
    simp [hb]
  · simp [X2]
  · simp [M2]
  · obtain ⟨b, hb, -⟩ := hyf
    simp [hb]
  · obtain ⟨Z', A, B, kx, mx, mz, i1, i2, i3, i4, i5, i6, i7, i8, i9, i10, i11, i12, i13⟩ := H d hd
    have := hS d hd A B i2 i3
    obtain ⟨Br, Bc, Be⟩ := B
    have h' := this.sq
    obtain ⟨rfl, -⟩ := this
    rw [← h']
    exact i5.2
  · have hKz : Mats s s K ra ra (K.mat ra ra) := ⟨s, K2, .refl _, .refl _, fun _ => rfl⟩
    obtain ⟨Lz, L1, L2⟩ := hKz.on fun _ A => chol A
    obtain ⟨W, W1, W2⟩ := L2.solve (mats_of ⟨s, Z2, .refl s⟩)
    obtain ⟨Kn, tr, k1', ⟨sn, m1, -, m2, m3⟩, -⟩ := hD.noiseTrace o.method W2
    refine ⟨Lz, W, Kn, tr, L1, W1, k1', fun i hi => ?_⟩
    rw [m1] at hi
    cases hi with
    | @cons j _ i _ hj hi =>
    obtain ⟨d, hd, rfl⟩ := m2.onto h0 hi
    obtain ⟨Z', A, B, kx', mx, mz, i1, i2, i3, i4, i5, i6, i7, i8, i9, i10, i11, i12, i13⟩ := H d hd
    have sA := hS d hd A B i2 i3
    have sB := Z3 d hd Z' i1
    obtain ⟨Ar, Ac, Ae⟩ := B
    obtain ⟨Br, Bc, Be⟩ := Z'
    have eA := sA.sq
    obtain ⟨rfl, -⟩ := sA
    obtain ⟨-, rfl, sB⟩ := sB
    have eB : (Mat.mk Br Bc Be).rect Ar = Z.mat Ar Bc d := by
      funext i j
      exact sB i i.2 j j.2
    have eN : (fun j : Fin Bc => (o.noiseX.toMat d).e j j) = fun j : Fin Bc => noise.get ((j : ℕ) :: d) := by
      funext j
      rw [d3]
      rfl
    have := i8 ⟨j, hj⟩
    simp only at this
    rw [eA, eB, show (fun j : Fin Bc => (o.at' d).noiseX.mat.e j j) = _ from eN, x4 d hd _ i7] at this
    refine lt_of_lt_of_eq this (Eq.trans (m3 d ⟨j, hj⟩).symm ?_)
    rw [Ten.get, m1, clip]
    congr 2
    simp only
    have hj' : j < Bc := hj
    split <;> omega

end Bat

/-! ### Examples -/

namespace Bat.ExamplePseudo
open BatchExample ExampleFdd

/-- Observations of the process at a batch of three inputs each, through an inducing point. -/
def o : BPseudo := ⟨.vfe, z, fillDiag 1 1, x, fillDiag 2 3, true, yg.uprank.map (·.getD 0)⟩

theorem made : mkPseudo (runOps prior {}) [] [] .vfe true (.one f) [.fdd g, .vals yg] = some ([], .pseudo 0 0 o) := by
  have e : observe g yg = some (.exact 0 x (fillDiag 2 3) (yg.uprank.map (·.getD 0))) := if_pos ⟨rfl, yg_whole⟩
  simp only [mkPseudo, mkU, mkObs, e, Option.bind_eq_bind, Option.bind_some]
  rfl

/-- Making the observations at an index. -/
example (d : List ℕ) (hd : In d [2]) : Stheno.mkPseudo (Stheno.runOps (prior.map (·.at' d)) {}) 5 [] [] .vfe true (.one (f.at' d)) [.fdd (g.at' d), .vals (valsAt d yg)] =
    some ([], .pseudo 0 0 (o.at' d)) :=
  C75_make prior 5 made trivial (show Fine [2] [.fdd g, .vals yg] from rfl) hd

/-- The inducing points of two FDDs. -/
example (d : List ℕ) (hd : In d [2]) : ∃ os b, mkPseudo (runOps prior {}) [0] [] .fitc true (.many [f, g]) [.fdd g, .vals yg] = some (os, b) ∧
    Stheno.mkPseudo (Stheno.runOps (prior.map (·.at' d)) {}) 5 [0] [] .fitc true (.many [f.at' d, g.at' d]) [.fdd (g.at' d), .vals (valsAt d yg)] = some (os.map (·.at' d), b.at' d) := by
  have e : observe g yg = some (.exact 0 x (fillDiag 2 3) (yg.uprank.map (·.getD 0))) := if_pos ⟨rfl, yg_whole⟩
  have e' : mkPseudo (runOps prior {}) [0] [] .fitc true (.many [f, g]) [.fdd g, .vals yg] =
      some ([.cross [0, 0] [0]], .pseudo 1 0 ⟨.fitc, c.x, c.noise, x, fillDiag 2 3, true, yg.uprank.map (·.getD 0)⟩) := by
    simp only [mkPseudo, mkU, combined, mkObs, e, Option.bind_eq_bind, Option.bind_some, Option.pure_def]
    rfl
  exact ⟨_, _, e', C75_make prior 5 e' wide (show Fine [2] [.fdd g, .vals yg] from rfl) hd⟩

theorem partY_some {w : World} {m : MId} {pu p : PId} {o : PseudoData} {Z A K : Mat} {kx : Fin Z.c → ℝ} {mx mz : List ℝ} (h1 : Stheno.KernelCall w m pu p o.z o.x Z)
    (h2 : Stheno.KernelCall w m pu pu o.z o.z A) (h3 : A.add o.noiseZ = some K) (h4 : o.noiseX.isDiagonal = true ∧ (K.r = K.c ∧ (K.sq K.r).PosDef) ∧
    (Z.r = K.r ∧ o.noiseX.mat.r = Z.c ∧ o.noiseX.mat.c = Z.c)) (h5 : kxDiag w p o m Z.c = some kx)
    (h6 : ∀ j, 0 < knDiag o.method (K.sq K.r) (Z.rect K.r) kx (fun j => o.noiseX.mat.e j j) j) (h7 : Stheno.MeanCall w m p o.x mx) (h8 : Stheno.MeanCall w m pu o.z mz)
    (h9 : mx.length = Z.c ∧ o.y.length = Z.c) (h10 : mz.length = K.r) : ∃ r, (getElbo w pu p o m {}).2 = some r := by
  rw [(RightP.empty _ _ _ _).get_elbo]
  have hK : partK w pu p o m = some (Z, K) := by
    unfold partK
    rw [callK_iff.2 h1, callK_iff.2 h2]
    simp only [Option.bind_eq_bind, Option.bind_some, h3]
  have hG : partG w pu p o m = some ⟨K.r, Z.c, K.sq K.r, Z.rect K.r, kx, fun j => o.noiseX.mat.e j j⟩ := by
    unfold partG
    rw [hK]
    simp only [Option.bind_eq_bind, Option.bind_some]
    rw [if_pos h4, h5]
    simp only [Option.bind_some]
    rw [if_pos h6]
  unfold partY
  rw [hG, callM_iff.2 h7, callM_iff.2 h8]
  simp only [Option.bind_eq_bind, Option.bind_some]
  rw [if_pos h9, if_pos h10]
  exact ⟨_, rfl⟩

/-- The ELBOs at both indices. -/
theorem at_d (d : List ℕ) : ∃ r, (getElbo (Stheno.runOps (prior.map (·.at' d)) {}) 0 0 (o.at' d) 0 {}).2 = some r := by
  obtain ⟨a, ea⟩ := z_at d
  obtain ⟨b1, b2, b3, eb⟩ := x_at d
  have e : o.at' d = ⟨.vfe, .num [a], (fillDiag 1 1).toMat d, .num [b1, b2, b3], ⟨(fillDiag 2 3).toMat d, true⟩, (o.at' d).y⟩ := by
    rw [← ea, ← eb]
    rfl
  rw [e]
  have hc : ∀ v, callD (Stheno.runOps (prior.map (·.at' d)) {}) 0 0 0 (.num [b1, b2, b3]) (.num [b1, b2, b3]) = some v → v.length = 3 → kxDiag (Stheno.runOps (prior.map (·.at' d)) {}) 0
      ⟨.vfe, .num [a], (fillDiag 1 1).toMat d, .num [b1, b2, b3], ⟨(fillDiag 2 3).toMat d, true⟩, (o.at' d).y⟩ 0 3 = some fun j : Fin 3 => v.getD j 0 := by
    intro v h1 h2
    unfold kxDiag
    simp only [h1, Option.bind_eq_bind, Option.bind_some, h2, if_true]
  refine partY_some (Z := ⟨1, 3, fun i j => k ([a].getD i []) ([b1, b2, b3].getD j [])⟩) (A := ⟨1, 1, fun i j => k ([a].getD i []) ([a].getD j [])⟩)
    (K := ⟨1, 1, fun i j => k ([a].getD i []) ([a].getD j []) + ((fillDiag 1 1).toMat d).e i j⟩) (mx := [3, 3, 3]) (mz := [3])
    ⟨.prim k, 1, rfl, rfl⟩ ⟨.prim k, 1, rfl, rfl⟩ rfl ⟨rfl, ⟨rfl, ?_⟩, rfl, rfl, rfl⟩ (hc _ (callD_iff.2 ⟨.prim k, 1, rfl, rfl⟩) rfl) ?_ ⟨.fn (.const 3), 1, rfl, rfl⟩
    ⟨.fn (.const 3), 1, rfl, rfl⟩ ⟨rfl, rfl⟩ rfl
  · refine pd (A := fun i j => k ([a].getD i []) ([a].getD j []) + ((fillDiag 1 1).toMat d).e i j) (k a a + 1) (by simp only [k]; nlinarith [mul_self_nonneg (a.headD 0)]) ?_
    simp [toMat, Ten.get, fillDiag, clip]
  · intro j
    have : ((fillDiag 2 3).toMat d).e j j = 2 := by simp [toMat, Ten.get, fillDiag, clip]
    simp only [knDiag, this]
    norm_num

theorem o_is : o.Is [2] := ⟨z_is, ⟨1, 1, [], rfl, rfl⟩, x_is, ⟨3, 3, [], rfl, rfl⟩, rfl, rfl⟩

/-- The ELBOs of the batch, one for each index. -/
example : ∃ t, PseudoLogpdf (runOps prior {}) 0 (.pseudo 0 0 o) t ∧ t.shape = [2] ∧
    ∀ d, In d [2] → logpdfPseudo (Stheno.runOps (prior.map (·.at' d)) {}) 0 {} (.pseudo 0 0 (o.at' d)) = some (t.get d) := by
  obtain ⟨D, R, h1, h2⟩ := C75_returns batch is o_is fun d _ => at_d d
  have h3 : PseudoLogpdf (runOps prior {}) 0 (.pseudo 0 0 o) R.elbo := ⟨D, R, h1, rfl⟩
  exact ⟨R.elbo, h3, h2, (C75_logpdf (fun o ho => Keep.is_fits (is o ho)) (BObs.Is.fits (o := .pseudo 0 0 o) o_is) h3).2⟩

/-- All that is computed. -/
example : ∃ D R, ComputeCall (runOps prior {}) 0 0 o 0 D R ∧ ∃ n, ∀ d, In d [2] →
    (getMu (Stheno.runOps (prior.map (·.at' d)) {}) 0 0 (o.at' d) 0 {}).2 = some (R.mu.colList n d) := by
  obtain ⟨D, R, h1, -⟩ := C75_returns batch is o_is fun d _ => at_d d
  obtain ⟨-, n, hn⟩ := C75_compute (fun o ho => Keep.is_fits (is o ho)) o_is.fits h1
  exact ⟨D, R, h1, n, fun d hd => (hn d hd).2.1⟩

end Bat.ExamplePseudo

end Stheno
