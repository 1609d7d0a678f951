import Verif.Post
import Verif.Fdd

/-!
# Conditioning: C18, C19, C20, C21
-/

namespace Stheno

open Matrix

set_option maxRecDepth 4000

section
variable {ops before : List Op} {m m' : MId} {obs : Obs} {p i j : PId} {z x : Input} {noise : Mat} {y : List ℝ} {G : Dom}

/-! ## C21 -/

/-- **C21.** In every program, the variance of a process at an input after an observation is at most the variance
before. -/
theorem C21_variance (g : Gives ops before m (.exact p z noise y) m') (hi : Attached (runOps before {}) m i)
    (hx : x.IsAtom) {A' : Mat} (h : KernelCall (runOps ops {}) m' i i x x A') :
    ∃ A, KernelCall (runOps ops {}) m i i x x A ∧ A'.r = A.r ∧ A'.c = A.c ∧ ∀ s, A'.e s s ≤ A.e s s := by
  by_cases hz : numElements z = 0
  · obtain ⟨k, n, hk, hA⟩ := h
    rw [g.kernelAt_eq hi hi] at hk
    simp only [obsKernel, hz, if_true] at hk
    exact ⟨A', ⟨k, n, hk, hA⟩, rfl, rfl, fun s => le_rfl⟩
  · obtain ⟨A, K, B, C, hA, _, hp, hB, hC, h1, h2, h3, h4, rfl⟩ := g.kernel_call hz hi hi hx hx h
    have e := hB.unique hC
    subst e
    refine ⟨A, hA, rfl, rfl, fun s => ?_⟩
    show A.e s s - _ ≤ A.e s s
    have := hp.inv.posSemidef.dotProduct_mulVec_nonneg (fun a : Fin K.r => B.e a s)
    simp only [star_trivial, dotProduct, mulVec, Finset.mul_sum] at this
    simp only [← mul_assoc] at this
    linarith

/-- Conditioning a block. -/
theorem schur_psd {ι κ : Type} [Fintype ι] [DecidableEq ι] [Fintype κ] [DecidableEq κ] {Kz N : Matrix ι ι ℝ}
    {B : Matrix ι κ ℝ} {A : Matrix κ κ ℝ} (hP : (fromBlocks Kz B Bᵀ A).PosSemidef) (hN : N.PosSemidef)
    (hK : (Kz + N).PosDef) : (A - Bᵀ * (Kz + N)⁻¹ * B).PosSemidef := by
  have hN' : (fromBlocks N (0 : Matrix ι κ ℝ) (0 : Matrix κ ι ℝ) (0 : Matrix κ κ ℝ)).PosSemidef := by
    refine PosSemidef.of_dotProduct_mulVec_nonneg ?_ fun v => ?_
    · rw [IsHermitian, fromBlocks_conjTranspose, hN.1]; simp
    · obtain ⟨a, b, rfl⟩ : ∃ a b, v = Sum.elim a b := ⟨v ∘ Sum.inl, v ∘ Sum.inr, by funext s; cases s <;> rfl⟩
      rw [fromBlocks_mulVec]
      have := hN.dotProduct_mulVec_nonneg a
      simpa [dotProduct, Fintype.sum_sum_type] using this
  have hs : fromBlocks (Kz + N) B Bᴴ A = fromBlocks Kz B Bᵀ A + fromBlocks N 0 0 0 := by
    rw [fromBlocks_add, conjTranspose_eq_transpose_of_trivial]; simp
  have hQ : (fromBlocks (Kz + N) B Bᴴ A).PosSemidef := hs ▸ hP.add hN'
  let := (Kz + N).invertibleOfIsUnitDet (isUnit_iff_ne_zero.2 hK.det_pos.ne')
  have := (PosDef.fromBlocks₁₁ B A hK).1 hQ
  rwa [conjTranspose_eq_transpose_of_trivial] at this

/-- **C21.** In every program, the covariance matrix of any finite set of values after an observation is positive
semi-definite if that of these values and the observed ones was positive semi-definite before. -/
theorem C21_posSemidef (g : Gives ops before m (.exact p z noise y) m') (hz : numElements z ≠ 0)
    (hn : (noise.sq noise.r).PosSemidef) {n : ℕ} {q : Fin n → PId} {x : Fin n → Pt} {A' : Fin n → Fin n → Mat}
    (hq : ∀ s, Attached (runOps before {}) m (q s))
    (hA' : ∀ s t, KernelCall (runOps ops {}) m' (q s) (q t) (.num [x s]) (.num [x t]) (A' s t))
    (prior : ∀ (Kz : Mat) (B : Fin n → Mat) (A : Fin n → Fin n → Mat), KernelCall (runOps ops {}) m p p z z Kz →
      (∀ s, KernelCall (runOps ops {}) m p (q s) z (.num [x s]) (B s)) →
      (∀ s t, KernelCall (runOps ops {}) m (q s) (q t) (.num [x s]) (.num [x t]) (A s t)) →
      (fromBlocks (Kz.sq Kz.r) (of fun a s => (B s).e a 0 : Matrix (Fin Kz.r) (Fin n) ℝ)
        (of fun s a => (B s).e a 0) (of fun s t => (A s t).e 0 0)).PosSemidef) :
    (of fun s t => (A' s t).e 0 0).PosSemidef := by
  cases n with
  | zero =>
    refine PosSemidef.of_dotProduct_mulVec_nonneg (by ext s; exact s.elim0) fun v => ?_
    simp [dotProduct]
  | succ n =>
    have key := fun s t => g.kernel_call hz (hq s) (hq t) (x := .num [x s]) (x' := .num [x t]) trivial trivial (hA' s t)
    obtain ⟨_, K, _, _, _, ⟨Kz, hKz, hadd, hsq⟩, hpd, _⟩ := key 0 0
    have hadd0 := hadd
    unfold Mat.add at hadd
    split at hadd
    swap; · cases hadd
    next hs =>
    have hK := Option.some.inj hadd
    have hB : ∀ s, ∃ B, KernelCall (runOps ops {}) m p (q s) z (.num [x s]) B := fun s => by
      obtain ⟨_, _, B, _, _, _, _, hB, _⟩ := key s s
      exact ⟨B, hB⟩
    choose B hB using hB
    have hA : ∀ s t, ∃ A, KernelCall (runOps ops {}) m (q s) (q t) (.num [x s]) (.num [x t]) A ∧
        (A' s t).e 0 0 = A.e 0 0 - ∑ a : Fin K.r, ∑ b : Fin K.r, (B s).e a 0 * (K.sq K.r)⁻¹ a b * (B t).e b 0 := by
      intro s t
      obtain ⟨A, K', B', C', h1, ⟨Kz', hKz', hadd', _⟩, _, h3, h4, _, _, _, _, h5⟩ := key s t
      cases hKz.unique hKz'
      rw [hadd0] at hadd'
      cases hadd'
      cases (hB s).unique h3
      cases (hB t).unique h4
      exact ⟨A, h1, by rw [h5]⟩
    choose A hA hAe using hA
    have hP := prior Kz B A hKz hB hA
    have rK : K.r = Kz.r := by rw [← hK]
    have hKN : K.sq Kz.r = Kz.sq Kz.r + noise.sq Kz.r := by
      rw [← hK]; rfl
    rw [rK] at hpd hAe
    rw [hKN] at hpd hAe
    rw [← hs.1] at hn
    have := schur_psd (B := (of fun a s => (B s).e a 0 : Matrix (Fin Kz.r) (Fin (n + 1)) ℝ)) hP hn hpd
    have he : (of fun s t => (A' s t).e 0 0 : Matrix (Fin (n + 1)) (Fin (n + 1)) ℝ) = (of fun s t => (A s t).e 0 0) -
        (of fun a s => (B s).e a 0 : Matrix (Fin Kz.r) (Fin (n + 1)) ℝ)ᵀ * (Kz.sq Kz.r + noise.sq Kz.r)⁻¹ *
          (of fun a s => (B s).e a 0 : Matrix (Fin Kz.r) (Fin (n + 1)) ℝ) := by
      ext s t
      show (A' s t).e 0 0 = (A s t).e 0 0 - _
      rw [hAe, mul_apply, Finset.sum_comm]
      congr 1
      refine Finset.sum_congr rfl fun b _ => ?_
      rw [mul_apply, Finset.sum_mul]
      rfl
    rw [he]
    exact this

/-- **C21.** For programs with positive semi-definite kernels and noise in which all calls return, the covariance matrix of any finite set of values is positive semi-definite, in the prior and in all posteriors. -/
theorem C21_regular (h : Regular G ops)
    {n : ℕ} {q : Fin n → PId} {x : Fin n → Pt} {A : Fin n → Fin n → Mat}
    (hq : ∀ s, Attached (runOps ops {}) m (q s) ∧ G (q s) (x s))
    (hA : ∀ s t, KernelCall (runOps ops {}) m (q s) (q t) (.num [x s]) (.num [x t]) (A s t)) :
    (of fun s t => (A s t).e 0 0).PosSemidef := by
  have hpos := h.pos m
  have hv : ∀ s, ∃ v, (reading ops).F m (q s) (.num [x s]) = some [v] := fun s => by
    obtain ⟨vs, hF, l⟩ := h.value (hq s).1 (.one (hq s).2)
    obtain ⟨v, rfl⟩ := List.length_eq_one_iff.1 l
    exact ⟨v, hF⟩
  choose v hv using hv
  have he : ∀ s t, (A s t).e 0 0 = ((reading ops).S m).C (v s) (v t) := fun s t =>
    (h.kernel_eq (hq s).1 (hq t).1 (.one (hq s).2) (.one (hq t).2) (hA s t) (hv s) (hv t)).e 0 Nat.one_pos 0 Nat.one_pos
  have hz : ∀ s, (List.ofFn v).get (Fin.cast (List.length_ofFn).symm s) = v s := fun s => by simp
  have hg := (gram_posSemidef _ (List.ofFn v) hpos).submatrix (Fin.cast (List.length_ofFn (f := v)).symm)
  convert hg using 1
  ext s t
  show (A s t).e 0 0 = ((reading ops).S m).C ((List.ofFn v).get _) ((List.ofFn v).get _)
  rw [he, hz, hz]

/-- Processes 3 and 5 of `study`, at any points, in the second posterior. -/
example {x : Fin 2 → Pt} {A : Fin 2 → Fin 2 → Mat}
    (hA : ∀ s t, KernelCall (runOps study {}) 2 (![3, 5] s) (![3, 5] t) (.num [x s]) (.num [x t]) (A s t)) :
    (of fun s t => (A s t).e 0 0).PosSemidef :=
  C21_regular study_regular
    (fun s => by fin_cases s <;> exact ⟨attached_iff.2 rfl, (by decide : ¬ _ = 4)⟩) hA

/-! ## C20 -/

/-- **C20.** In every program: after an observation without noise, the mean of the observed process at the observed input
is the data, and its covariances there, with any process at any input, are zero. -/
theorem C20_calls (g : Gives ops before m (.exact p z noise y) m') (hz : numElements z ≠ 0)
    (h0 : ∀ s t, noise.e s t = 0) (hp : Attached (runOps before {}) m p) (hza : z.IsAtom) :
    (∀ v, MeanCall (runOps ops {}) m' p z v → v = y) ∧
    ∀ j x A, Attached (runOps before {}) m j → x.IsAtom → KernelCall (runOps ops {}) m' p j z x A →
      ∀ s < A.r, ∀ t, A.e s t = 0 := by
  have hKz : ∀ {K Kz : Mat}, Kz.add noise = some K → K.r = K.c → Kz.r = K.r ∧ Kz.c = K.r ∧ Kz.sq K.r = K.sq K.r := by
    intro K Kz h hs
    unfold Mat.add at h
    split at h
    · cases h
      refine ⟨rfl, hs.symm, ?_⟩
      ext s t
      show Kz.e s t = Kz.e s t + noise.e s t
      rw [h0, add_zero]
    · cases h
  constructor
  · intro v' h
    obtain ⟨v, K, u, B, hv, ⟨Kz, hKz', hadd, hsq⟩, hpd, hu, hB, l1, l2, l3, l4, rfl⟩ := g.mean_call hz hp hza h
    cases hv.unique hu
    cases hB.unique hKz'
    obtain ⟨r1, c1, e1⟩ := hKz hadd hsq
    have hdet : IsUnit (K.sq K.r).det := isUnit_iff_ne_zero.2 hpd.det_pos.ne'
    have hsy : (K.sq K.r)ᵀ = K.sq K.r := by
      have := hpd.1
      rwa [IsHermitian, conjTranspose_eq_transpose_of_trivial] at this
    refine List.ext_getElem (by simp [l1, l2, c1]) fun s h1 h2 => ?_
    have hs : s < K.r := by omega
    have hsum : ∑ a : Fin K.r, B.e a s * ((K.sq K.r)⁻¹ *ᵥ fun a : Fin K.r => y.getD a 0 - v.getD a 0) a =
        y.getD s 0 - v.getD s 0 := by
      have : (K.sq K.r *ᵥ ((K.sq K.r)⁻¹ *ᵥ fun a : Fin K.r => y.getD a 0 - v.getD a 0)) ⟨s, hs⟩ = y.getD s 0 - v.getD s 0 := by
        rw [mulVec_mulVec, mul_nonsing_inv _ hdet, one_mulVec]
      rw [← this, ← hsy]
      refine Finset.sum_congr rfl fun a _ => ?_
      rw [← e1]
      rfl
    simp only [List.getElem_zipWith, List.getElem_map, List.getElem_range]
    rw [hsum, List.getD_eq_getElem?_getD, List.getD_eq_getElem?_getD, List.getElem?_eq_getElem h2,
      List.getElem?_eq_getElem (by omega)]
    simp
  · intro j x A' hj hx h s hs t
    obtain ⟨A, K, B, C, hA, ⟨Kz, hKz', hadd, hsq⟩, hpd, hB, hC, h1, h2, h3, h4, rfl⟩ := g.kernel_call hz hp hj hza hx h
    cases hA.unique hC
    cases hB.unique hKz'
    obtain ⟨r1, c1, e1⟩ := hKz hadd hsq
    have hdet : IsUnit (K.sq K.r).det := isUnit_iff_ne_zero.2 hpd.det_pos.ne'
    have hsy : (K.sq K.r)ᵀ = K.sq K.r := by
      have := hpd.1
      rwa [IsHermitian, conjTranspose_eq_transpose_of_trivial] at this
    change s < A.r at hs
    have hs' : s < K.r := by omega
    show A.e s t - _ = 0
    have : (K.sq K.r *ᵥ ((K.sq K.r)⁻¹ *ᵥ fun b : Fin K.r => A.e b t)) ⟨s, hs'⟩ = A.e s t := by
      rw [mulVec_mulVec, mul_nonsing_inv _ hdet, one_mulVec]
    have hb : ∀ a : Fin K.r, B.e a s = (K.sq K.r) ⟨s, hs'⟩ a := fun a => by
      rw [← e1]
      show B.sq K.r a ⟨s, hs'⟩ = B.sq K.r ⟨s, hs'⟩ a
      rw [e1]
      exact congrFun (congrFun hsy ⟨s, hs'⟩) a
    rw [← this, sub_eq_zero, mulVec, dotProduct]
    refine Finset.sum_congr rfl fun a _ => ?_
    rw [mulVec, dotProduct, Finset.mul_sum]
    refine Finset.sum_congr rfl fun b _ => ?_
    rw [hb, mul_assoc]

end

/-! ## Observations of pairs -/

/-- The observations `Obs(*pairs)` (`stheno/model/observations.py:28-47, 81-83`) if no value is missing, where `c` is the cross
process that `combine` makes. -/
def jointObs (c : PId) (l : List (Fdd × List ℝ)) : Obs :=
  .exact c (.tup (l.map fun e => .fdd e.1.p e.1.x)) (Mat.blockDiag (l.map (·.1.noise))) (l.flatMap (·.2))

/-- `o` are observations of the pairs `l` in a program, made with `Obs(fdd, y)` or `Obs(*pairs)`. Entries of noise matrices that
are out of range do not matter. -/
inductive ObsOf (ops : List Op) (m : MId) : List (Fdd × List ℝ) → Obs → Prop
  | single (f : Fdd) (y : List ℝ) : ObsOf ops m [(f, y)] (.exact f.p f.x f.noise y)
  | joint {b : List Op} {qs : List PId} {ord : List MId} {c : PId} {l : List (Fdd × List ℝ)}
      (hm : Runs ops b (.cross qs ord) c) (hc : Attached (runOps ops {}) m c) (hl : ∀ e ∈ l, e.1.p ∈ qs) :
      ObsOf ops m l (jointObs c l)
  | eqv {l : List (Fdd × List ℝ)} {p : PId} {x : Input} {N N' : Mat} {y : List ℝ} (h : ObsOf ops m l (.exact p x N y))
      (hN : N'.Eqv N) : ObsOf ops m l (.exact p x N' y)

theorem Mat.dsum_assoc (A B C : Mat) : (A.dsum B).dsum C = A.dsum (B.dsum C) := by
  simp only [Mat.dsum, Mat.mk.injEq]
  refine ⟨by omega, by omega, ?_⟩
  funext i j
  by_cases h1 : i < A.r <;> by_cases h2 : j < A.c <;> by_cases h3 : i < A.r + B.r <;> by_cases h4 : j < A.c + B.c <;>
    by_cases h5 : i - A.r < B.r <;> by_cases h6 : j - A.c < B.c <;> simp [h1, h2, h3, h4, h5, h6] <;>
    first | omega | skip
  all_goals
    congr 1 <;> omega

theorem blockDiag_append (l1 l2 : List Mat) :
    Mat.blockDiag (l1 ++ l2) = (Mat.blockDiag l1).dsum (Mat.blockDiag l2) := by
  induction l1 with
  | nil => simp [Mat.blockDiag, Mat.dsum]
  | cons A l1 ih => rw [List.cons_append, Mat.blockDiag, ih, Mat.blockDiag, Mat.dsum_assoc]

theorem blockDiag_one (A : Mat) (i j : ℕ) (hi : i < A.r) (hj : j < A.c) : (Mat.blockDiag [A]).e i j = A.e i j := by
  simp [Mat.blockDiag, Mat.dsum, hi, hj]

section
variable {V : Type} [AddCommGroup V] [Module ℝ V] {I : Interp V} {ops : List Op} {m m1 m2 mj : MId}
  {l l' l1 l2 : List (Fdd × List ℝ)} {zss zss' zss1 zss2 : List (List V)} {o o' o1 o2 oj : Obs} {b b' b1 b2 bj : List Op}

/-- The values of the FDDs, and noise and data of the right sizes. -/
def Interp.Blocks (I : Interp V) (m : MId) (l : List (Fdd × List ℝ)) (zss : List (List V)) : Prop :=
  List.Forall₂ (fun e zs => I.F m e.1.p e.1.x = some zs ∧ e.1.noise.r = zs.length ∧ e.1.noise.c = zs.length ∧
    e.2.length = zs.length) l zss

theorem Interp.Blocks.sizes (h : I.Blocks m l zss) : (Mat.blockDiag (l.map (·.1.noise))).r = zss.flatten.length ∧
    (Mat.blockDiag (l.map (·.1.noise))).c = zss.flatten.length ∧ (l.flatMap (·.2)).length = zss.flatten.length := by
  induction h with
  | nil => exact ⟨rfl, rfl, rfl⟩
  | cons h _ ih =>
    obtain ⟨_, h1, h2, h3⟩ := h
    simp only [List.map_cons, Mat.blockDiag, Mat.dsum, List.flatten_cons, List.length_append, List.flatMap_cons]
    omega

theorem Interp.Blocks.mapM (h : I.Blocks m l zss) : (l.mapM fun e => I.F m e.1.p e.1.x) = some zss := by
  induction h with
  | nil => rfl
  | cons h _ ih => rw [List.mapM_cons, h.1, ih]; rfl

/-- What is observed. -/
theorem ObsOf.observes (ho : ObsOf ops m l o) (h : I.Reads ops) (hb : I.Blocks m l zss) :
    ∃ p x noise y, o = .exact p x noise y ∧ I.F m p x = some zss.flatten ∧ numElements x = (l.map fun e => numElements e.1.x).sum ∧
      y = l.flatMap (·.2) ∧ noise.r = zss.flatten.length ∧ noise.c = zss.flatten.length ∧
      ∀ i < zss.flatten.length, ∀ j < zss.flatten.length, noise.e i j = (Mat.blockDiag (l.map (·.1.noise))).e i j := by
  induction ho with
  | eqv _ hN ih =>
    obtain ⟨p, x, N, y, e, h1, h2, h3, h4, h5, h6⟩ := ih hb
    cases e
    exact ⟨_, _, _, _, rfl, h1, h2, h3, hN.r.trans h4, hN.c.trans h5, fun i hi j hj =>
      (hN.e i (h4 ▸ hi) j (h5 ▸ hj)).trans (h6 i hi j hj)⟩
  | single f y =>
    cases hb with
    | cons hb hb' =>
    cases hb'
    obtain ⟨h1, h2, h3, h4⟩ := hb
    refine ⟨_, _, _, _, rfl, by simpa using h1, by simp, by simp, by simpa using h2, by simpa using h3, fun i hi j hj => ?_⟩
    exact (blockDiag_one _ i j (by simp at hi; exact hi.trans_eq h2.symm)
      (by simp at hj; exact hj.trans_eq h3.symm)).symm
  | @joint b qs ord c l hm hc hl =>
    obtain ⟨s1, s2, s3⟩ := hb.sizes
    refine ⟨_, _, _, _, rfl, ?_, ?_, rfl, s1, s2, fun _ _ _ _ => rfl⟩
    · rw [(h.ok m _).tup, List.mapM_map]
      have he : ∀ l0 : List (Fdd × List ℝ), (∀ e ∈ l0, e.1.p ∈ qs) → (l0.mapM fun e => I.F m c (.fdd e.1.p e.1.x)) =
          l0.mapM fun e => I.F m e.1.p e.1.x := by
        intro l0 h0
        induction l0 with
        | nil => rfl
        | cons e l0 ih =>
          rw [List.mapM_cons, List.mapM_cons, ih fun e he => h0 e (by simp [he]),
            (h.cross hc (hm.of (d := .cross _) rfl)).2 _ (h0 e (by simp))]
      show Option.map List.flatten (l.mapM fun e => I.F m c (.fdd e.1.p e.1.x)) = _
      rw [he l hl, hb.mapM]; rfl
    · clear hb s1 s2 s3 hl
      induction l with
      | nil => rfl
      | cons e l ih =>
        simp only [List.map_cons, List.sum_cons]
        rw [← ih]
        rfl

/-- The law of a posterior. -/
theorem Gives.law (g : Gives ops b m o m1) (h : I.Reads ops) :
    (∀ p : PId, Attached (runOps b {}) m p → I.F m1 p = I.F m p) ∧ I.PostLaw m (I.S m1) o := by
  obtain ⟨a, ha, hb, hps, _⟩ := g.state
  obtain ⟨h1, h2⟩ := h.laws.post m1 a _ ha hb
  exact ⟨fun p hp => h1 p (hps ▸ mem_members.2 hp), h2⟩

theorem Gives.firm (g : Gives ops b m o m1) (hf : I.Firm ops) : I.FirmObs m o := by
  obtain ⟨after, e⟩ := g.split
  exact hf b m o after e g.has

/-- Observing pairs is an update with the values of the FDDs, block-diagonal noise and the concatenated data. -/
theorem Gives.blocks (g : Gives ops b m o m1) (h : I.Reads ops) (hf : I.Firm ops) (ho : ObsOf ops m l o)
    (hb : I.Blocks m l zss) (hne : ∃ e ∈ l, numElements e.1.x ≠ 0) :
    IsUpdate (I.S m) (I.S m1) zss.flatten (Mat.blockDiag (l.map (·.1.noise))) (l.flatMap (·.2)) ∧
      (noisyGram (I.S m) zss.flatten (Mat.blockDiag (l.map (·.1.noise)))).PosDef := by
  obtain ⟨p, x, noise, y, rfl, hF, hx, hy, hr, hc, he⟩ := ho.observes h hb
  have hg : noisyGram (I.S m) zss.flatten noise = noisyGram (I.S m) zss.flatten (Mat.blockDiag (l.map (·.1.noise))) := by
    ext i j
    show _ + noise.e i j = _ + (Mat.blockDiag (l.map (·.1.noise))).e i j
    rw [he i i.2 j j.2]
  have hpd := (g.firm hf _ hF).1
  rcases (g.law h).2 with ⟨h0, _⟩ | ⟨_, zs, hz, hu⟩
  · obtain ⟨e, he, h1⟩ := hne
    exfalso
    rw [hx, List.sum_eq_zero_iff] at h0
    exact h1 (h0 _ (List.mem_map.2 ⟨e, he, rfl⟩))
  · rw [hF] at hz
    cases hz
    rw [hg] at hpd
    obtain ⟨s1, s2, s3⟩ := hb.sizes
    obtain ⟨_, _, hC, hE⟩ := hu
    rw [hg] at hC hE
    rw [hy] at hE
    exact ⟨⟨s1, s2, hC, hE⟩, hpd⟩

theorem SO.ext' {S S' : SO V} (hC : ∀ u v, S.C u v = S'.C u v) (hE : ∀ u, S.E u = S'.E u) : S = S' := by
  cases S; cases S'
  congr
  · exact LinearMap.ext hE
  · exact LinearMap.ext fun u => LinearMap.ext fun v => hC u v

/-- **C18.** Observing the pairs `l1` and then, in the posterior, the pairs `l2` gives the same expectations and covariances
as observing all of them at once. -/
theorem C18_reading (h : I.Reads ops) (hf : I.Firm ops) (g1 : Gives ops b1 m o1 m1) (g2 : Gives ops b2 m1 o2 m2)
    (gj : Gives ops bj m oj mj) (h1 : ObsOf ops m l1 o1) (h2 : ObsOf ops m1 l2 o2) (hj : ObsOf ops m (l1 ++ l2) oj)
    (k1 : I.Blocks m l1 zss1) (k2 : I.Blocks m l2 zss2) (n1 : ∃ e ∈ l1, numElements e.1.x ≠ 0)
    (n2 : ∃ e ∈ l2, numElements e.1.x ≠ 0) (ha : ∀ e ∈ l2, Attached (runOps b1 {}) m e.1.p) : I.S m2 = I.S mj := by
  have k2' : I.Blocks m1 l2 zss2 := by
    have hF : ∀ e ∈ l2, I.F m1 e.1.p = I.F m e.1.p := fun e he => (g1.law h).1 _ (ha e he)
    clear g1 g2 h2 hj n2 ha
    induction k2 with
    | nil => exact .nil
    | cons k _ ih => exact .cons (by rw [hF _ (by simp)]; exact k) (ih fun e he => hF e (by simp [he]))
  have kj : I.Blocks m (l1 ++ l2) (zss1 ++ zss2) := List.rel_append k1 k2
  obtain ⟨u1, p1⟩ := g1.blocks h hf h1 k1 n1
  obtain ⟨u2, p2⟩ := g2.blocks h hf h2 k2' n2
  obtain ⟨uj, pj⟩ := gj.blocks h hf hj kj (by obtain ⟨e, he, h0⟩ := n1; exact ⟨e, by simp [he], h0⟩)
  rw [List.flatten_append, List.map_append, blockDiag_append] at uj pj
  rw [List.flatMap_append] at uj
  obtain ⟨hC, hE⟩ := u1.trans u2 uj p1 p2 pj
  exact SO.ext' hC (hE k1.sizes.2.2 k2'.sizes.2.2)

theorem Interp.Blocks.reorder (hp : l.Perm l') (hb : I.Blocks m l zss) : ∃ zss', I.Blocks m l' zss' ∧
    Reorder zss.flatten (Mat.blockDiag (l.map (·.1.noise))) (l.flatMap (·.2))
      zss'.flatten (Mat.blockDiag (l'.map (·.1.noise))) (l'.flatMap (·.2)) := by
  induction hp generalizing zss with
  | nil => exact ⟨zss, hb, .refl⟩
  | cons e _ ih =>
    cases hb with
    | cons h hb =>
      obtain ⟨zss', hb', hr⟩ := ih hb
      obtain ⟨h0, h1, h2, h3⟩ := h
      exact ⟨_ :: zss', .cons ⟨h0, h1, h2, h3⟩ hb', .append h1 h2 h3 hr⟩
  | swap e e' l =>
    cases hb with
    | cons h hb =>
      cases hb with
      | cons h' hb => exact ⟨_ :: _ :: _, .cons h' (.cons h hb), .swap h.2.1 h.2.2.1 h.2.2.2 h'.2.1 h'.2.2.1 h'.2.2.2⟩
  | trans _ _ ih ih' =>
    obtain ⟨zss', hb', hr⟩ := ih hb
    obtain ⟨zss'', hb'', hr'⟩ := ih' hb'
    exact ⟨zss'', hb'', hr.trans hr'⟩

/-- **C19.** The order of the pairs does not matter. -/
theorem C19_reading (h : I.Reads ops) (hf : I.Firm ops) (g : Gives ops b m o m1) (g' : Gives ops b' m o' m2)
    (hp : l.Perm l') (ho : ObsOf ops m l o) (ho' : ObsOf ops m l' o') (hb : I.Blocks m l zss)
    (hn : ∃ e ∈ l, numElements e.1.x ≠ 0) : I.S m1 = I.S m2 := by
  obtain ⟨zss', hb', hr⟩ := hb.reorder hp
  obtain ⟨u, p⟩ := g.blocks h hf ho hb hn
  obtain ⟨u', _⟩ := g'.blocks h hf ho' hb' (by obtain ⟨e, he, h0⟩ := hn; exact ⟨e, hp.mem_iff.1 he, h0⟩)
  obtain ⟨hC, hE⟩ := u.reorder u' hr p
  exact SO.ext' hC (hE hb.sizes.2.2 hb'.sizes.2.2)

theorem flatten_E (S : SO V) (k1 : I.Blocks m l zss) (hE : zss.flatten.map S.E = l.flatMap (·.2)) :
    List.Forall₂ (fun e zs => zs.map S.E = e.2) l zss := by
  induction k1 with
  | nil => exact .nil
  | cons h _ ih =>
    rw [List.flatten_cons, List.map_append, List.flatMap_cons] at hE
    have := List.append_inj hE (by simp [h.2.2.2])
    exact .cons this.1 (ih this.2)

/-- **C20.** After observing pairs without noise, the expectations of the observed values are the data, and their
covariances with everything are zero. -/
theorem C20_reading (h : I.Reads ops) (hf : I.Firm ops) (g : Gives ops b m o m1) (ho : ObsOf ops m l o) (hb : I.Blocks m l zss)
    (hn : ∃ e ∈ l, numElements e.1.x ≠ 0) (h0 : ∀ e ∈ l, ∀ s t, e.1.noise.e s t = 0) :
    List.Forall₂ (fun e zs => zs.map (I.S m1).E = e.2) l zss ∧ ∀ zs ∈ zss, ∀ v ∈ zs, ∀ u, (I.S m1).C v u = 0 := by
  obtain ⟨u, p⟩ := g.blocks h hf ho hb hn
  have hz : (Mat.blockDiag (l.map (·.1.noise))).sq zss.flatten.length = 0 := by
    ext s t
    show (Mat.blockDiag (l.map (·.1.noise))).e s t = 0
    generalize (s : ℕ) = s
    generalize (t : ℕ) = t
    clear u p hb ho hn
    induction l generalizing s t with
    | nil => rfl
    | cons e l ih =>
      simp only [List.map_cons, Mat.blockDiag, Mat.dsum]
      split
      · split
        · exact h0 e (by simp) _ _
        · rfl
      · split
        · rfl
        · exact ih (fun e he => h0 e (by simp [he])) _ _
  have hm := u.mean_obs p hb.sizes.2.2
  have hc := u.covs_obs p
  rw [hz] at hm
  simp only [hz, zero_mulVec, Pi.zero_apply, sub_zero] at hm hc
  refine ⟨flatten_E _ hb (List.ext_getElem (by simp only [List.length_map]; exact hb.sizes.2.2.symm) fun s h1 h2 => ?_), fun zs hzs v hv w => ?_⟩
  · have := hm ⟨s, by rwa [List.length_map] at h1⟩
    rw [List.getD_eq_getElem?_getD, List.getElem?_eq_getElem h2] at this
    rw [List.getElem_map]
    simpa using this
  · obtain ⟨k, hk, rfl⟩ := List.getElem_of_mem (List.mem_flatten.2 ⟨zs, hzs, hv⟩)
    exact hc w ⟨k, hk⟩

end

/-! ### Calls of regular programs -/

section
variable {G : Dom} {ops : List Op} {m m1 m2 mj : MId} {q q' : PId} {xs ys : List Pt}
  {l l' l1 l2 : List (Fdd × List ℝ)} {o o' o1 o2 oj : Obs} {b b' b1 b2 bj : List Op}

/-- A process of the measure that was conditioned is in the posterior. -/
theorem Gives.attached (g : Gives ops b m o m1) (hq : Attached (runOps b {}) m q) : Attached (runOps ops {}) m1 q := by
  obtain ⟨after, e⟩ := g.split
  have := attached_append after (attached_condition (obs := o) hq)
  rw [g.id, e]
  simpa using this

theorem Gives.attached_prior (g : Gives ops b m o m1) (hq : Attached (runOps b {}) m q) : Attached (runOps ops {}) m q := by
  obtain ⟨after, e⟩ := g.split
  rw [e]
  exact attached_append _ hq

/-- A posterior is conditioned after it was made, so it then has all processes of its prior. -/
theorem Gives.attached_next (g : Gives ops b1 m o1 m1) (g' : Gives ops b2 m1 o2 m2) (hq : Attached (runOps b1 {}) m q) :
    Attached (runOps b2 {}) m1 q := by
  obtain ⟨after, e⟩ := g.split
  obtain ⟨after', e'⟩ := g'.split
  have hp1 : (b1 ++ [.condition m o1]) <+: ops := ⟨after, by rw [e]; simp⟩
  have hp2 : b2 <+: ops := ⟨_, e'.symm⟩
  rcases Nat.lt_or_ge b1.length b2.length with hlt | hge
  · obtain ⟨t, ht⟩ := List.prefix_of_prefix_length_le hp1 hp2 (by simpa using hlt)
    rw [← ht, g.id]
    exact attached_append t (attached_condition hq)
  · obtain ⟨t, ht⟩ := List.prefix_of_prefix_length_le hp2 ⟨_, e.symm⟩ hge
    have h1 := g'.has
    unfold HasMeasure at h1
    rw [g.id, ← ht] at h1
    have h2 : (runOps b2 {}).ms.length ≤ (runOps (b2 ++ t) {}).ms.length := by
      rw [(Inv.reach b2).rel.len, (Inv.reach (b2 ++ t)).rel.len]
      by_contra hc
      obtain ⟨a, ha⟩ : ∃ a, (specOps b2 {}).ms[(specOps (b2 ++ t) {}).ms.length]? = some a :=
        ⟨_, List.getElem?_eq_getElem (by omega)⟩
      obtain ⟨a', ha', _⟩ := ops_grow b2 t ha
      have := (List.getElem?_eq_some_iff.1 ha').1
      omega
    exact absurd h1 (by omega)

/-- A pair: an FDD of a process at rows at which it can be called, and noise and data of the right sizes. -/
def Fits (G : Dom) (e : Fdd × List ℝ) : Prop :=
  ∃ xs, e.1.x = .num xs ∧ Rows (G e.1.p) xs ∧ e.1.noise.r = xs.length ∧ e.1.noise.c = xs.length ∧ e.2.length = xs.length

theorem Regular.blocks (h : Regular G ops) (hl : ∀ e ∈ l, Fits G e) (ha : ∀ e ∈ l, Attached (runOps ops {}) m e.1.p) :
    ∃ zss, (reading ops).Blocks m l zss := by
  induction l with
  | nil => exact ⟨[], .nil⟩
  | cons e l ih =>
    obtain ⟨zss, hz⟩ := ih (fun e he => hl e (by simp [he])) fun e he => ha e (by simp [he])
    obtain ⟨xs, hx, hc, h1, h2, h3⟩ := hl e (by simp)
    obtain ⟨vs, hF, lv⟩ := h.value (ha e (by simp)) hc
    exact ⟨vs :: zss, .cons ⟨by rw [hx]; exact hF, h1.trans lv.symm, h2.trans lv.symm, h3.trans lv.symm⟩ hz⟩

/-- Two measures with the same expectations, covariances and values have means and kernels that return the same. -/
theorem Regular.same (h : Regular G ops) (hS : (reading ops).S m1 = (reading ops).S m2)
    (hF : ∀ q : PId, Attached (runOps b {}) m q → Attached (runOps b' {}) m q →
      Attached (runOps ops {}) m1 q ∧ Attached (runOps ops {}) m2 q ∧ (reading ops).F m1 q = (reading ops).F m2 q)
    (hq : Attached (runOps b {}) m q) (kq : Attached (runOps b' {}) m q)
    (hq' : Attached (runOps b {}) m q') (kq' : Attached (runOps b' {}) m q') (cq : Rows (G q) xs)
    (cq' : Rows (G q') ys) :
    (∀ v, MeanCall (runOps ops {}) m1 q (.num xs) v ↔ MeanCall (runOps ops {}) m2 q (.num xs) v) ∧
    ∃ A A', KernelCall (runOps ops {}) m1 q q' (.num xs) (.num ys) A ∧ KernelCall (runOps ops {}) m2 q q' (.num xs) (.num ys) A' ∧
      A.Eqv A' := by
  obtain ⟨a1, a2, e⟩ := hF q hq kq
  obtain ⟨a1', a2', e'⟩ := hF q' hq' kq'
  obtain ⟨vs, hv, _⟩ := h.value a1 cq
  obtain ⟨ws, hw, _⟩ := h.value a1' cq'
  have hv' := hv
  rw [e] at hv'
  have hw' := hw
  rw [e'] at hw'
  constructor
  · obtain ⟨v1, c1, _⟩ := h.mean a1 cq
    obtain ⟨v2, c2, _⟩ := h.mean a2 cq
    have hh : v1 = v2 := by rw [h.mean_eq a1 cq c1 hv, h.mean_eq a2 cq c2 hv', hS]
    intro v
    constructor
    · intro hc
      rw [hc.unique c1, hh]; exact c2
    · intro hc
      rw [hc.unique c2, ← hh]; exact c1
  · obtain ⟨A, hA, _⟩ := h.kernel a1 a1' cq cq'
    obtain ⟨A', hA', _⟩ := h.kernel a2 a2' cq cq'
    refine ⟨A, A', hA, hA', ?_⟩
    have k1 := h.kernel_eq a1 a1' cq cq' hA hv hw
    have k2 := h.kernel_eq a2 a2' cq cq' hA' hv' hw'
    rw [hS] at k1
    exact k1.trans k2.symm

/-- **C18.** In regular programs, all means and kernels of the posterior given `l1` and then `l2` return the same as those of
the posterior given both. -/
theorem C18_regular (h : Regular G ops) (g1 : Gives ops b1 m o1 m1) (g2 : Gives ops b2 m1 o2 m2)
    (gj : Gives ops bj m oj mj) (h1 : ObsOf ops m l1 o1) (h2 : ObsOf ops m1 l2 o2) (hj : ObsOf ops m (l1 ++ l2) oj)
    (k1 : ∀ e ∈ l1, Fits G e) (k2 : ∀ e ∈ l2, Fits G e) (n1 : ∃ e ∈ l1, numElements e.1.x ≠ 0)
    (n2 : ∃ e ∈ l2, numElements e.1.x ≠ 0) (ha1 : ∀ e ∈ l1, Attached (runOps b1 {}) m e.1.p)
    (ha2 : ∀ e ∈ l2, Attached (runOps b1 {}) m e.1.p)
    (hq : Attached (runOps b1 {}) m q) (kq : Attached (runOps bj {}) m q)
    (hq' : Attached (runOps b1 {}) m q') (kq' : Attached (runOps bj {}) m q') (cq : Rows (G q) xs)
    (cq' : Rows (G q') ys) :
    (∀ v, MeanCall (runOps ops {}) m2 q (.num xs) v ↔ MeanCall (runOps ops {}) mj q (.num xs) v) ∧
    ∃ A A', KernelCall (runOps ops {}) m2 q q' (.num xs) (.num ys) A ∧ KernelCall (runOps ops {}) mj q q' (.num xs) (.num ys) A' ∧
      A.Eqv A' := by
  obtain ⟨zss1, z1⟩ := h.blocks k1 fun e he => g1.attached_prior (ha1 e he)
  obtain ⟨zss2, z2⟩ := h.blocks k2 fun e he => g1.attached_prior (ha2 e he)
  refine h.same (C18_reading h.reads h.firm g1 g2 gj h1 h2 hj z1 z2 n1 n2 ha2) (fun q hq kq => ?_) hq kq hq' kq' cq cq'
  have hn := g1.attached_next g2 hq
  exact ⟨g2.attached hn, gj.attached kq, by
    rw [(g2.law h.reads).1 q hn, (g1.law h.reads).1 q hq, (gj.law h.reads).1 q kq]⟩

/-- **C19.** In regular programs, the order of the pairs does not matter for what means and kernels return. -/
theorem C19_regular (h : Regular G ops) (g : Gives ops b m o m1) (g' : Gives ops b' m o' m2)
    (hp : l.Perm l') (ho : ObsOf ops m l o) (ho' : ObsOf ops m l' o') (hl : ∀ e ∈ l, Fits G e)
    (hn : ∃ e ∈ l, numElements e.1.x ≠ 0) (ha : ∀ e ∈ l, Attached (runOps b {}) m e.1.p)
    (hq : Attached (runOps b {}) m q) (kq : Attached (runOps b' {}) m q)
    (hq' : Attached (runOps b {}) m q') (kq' : Attached (runOps b' {}) m q') (cq : Rows (G q) xs)
    (cq' : Rows (G q') ys) :
    (∀ v, MeanCall (runOps ops {}) m1 q (.num xs) v ↔ MeanCall (runOps ops {}) m2 q (.num xs) v) ∧
    ∃ A A', KernelCall (runOps ops {}) m1 q q' (.num xs) (.num ys) A ∧ KernelCall (runOps ops {}) m2 q q' (.num xs) (.num ys) A' ∧
      A.Eqv A' := by
  obtain ⟨zss, z⟩ := h.blocks hl fun e he => g.attached_prior (ha e he)
  refine h.same (C19_reading h.reads h.firm g g' hp ho ho' z hn) (fun q hq kq => ?_) hq kq hq' kq' cq cq'
  exact ⟨g.attached hq, g'.attached kq, by rw [(g.law h.reads).1 q hq, (g'.law h.reads).1 q kq]⟩

/-- **C20.** In regular programs, after observing pairs without noise, the mean of each of the processes at its input is its
data, and its covariance there with any process is zero. -/
theorem C20_regular (h : Regular G ops) (g : Gives ops b m o m1) (ho : ObsOf ops m l o) (hl : ∀ e ∈ l, Fits G e)
    (hn : ∃ e ∈ l, numElements e.1.x ≠ 0) (h0 : ∀ e ∈ l, ∀ s t, e.1.noise.e s t = 0)
    (ha : ∀ e ∈ l, Attached (runOps b {}) m e.1.p) {e : Fdd × List ℝ} (he : e ∈ l) :
    MeanCall (runOps ops {}) m1 e.1.p e.1.x e.2 ∧ ∀ q : PId, Attached (runOps ops {}) m1 q → ∀ ys, Rows (G q) ys →
      ∃ A, KernelCall (runOps ops {}) m1 e.1.p q e.1.x (.num ys) A ∧ A.r = e.2.length ∧ A.c = ys.length ∧
        ∀ s < A.r, ∀ t < A.c, A.e s t = 0 := by
  obtain ⟨zss, z⟩ := h.blocks hl fun e he => g.attached_prior (ha e he)
  obtain ⟨hE, hC⟩ := C20_reading h.reads h.firm g ho z hn h0
  obtain ⟨xs, hx, ce, _, _, ly⟩ := hl e he
  obtain ⟨k, hk, rfl⟩ := List.getElem_of_mem he
  have hk' : k < zss.length := z.length_eq ▸ hk
  have a1 := g.attached (ha _ he)
  have hz := (List.forall₂_iff_get.1 z).2 k hk hk'
  have hz2 := (List.forall₂_iff_get.1 hE).2 k hk hk'
  simp only [List.get_eq_getElem] at hz hz2
  have hF : (reading ops).F m1 l[k].1.p l[k].1.x = some zss[k] := by
    rw [(g.law h.reads).1 _ (ha _ he)]; exact hz.1
  rw [hx] at hF ⊢
  refine ⟨?_, fun q hq ys cq => ?_⟩
  · obtain ⟨v, hv, _⟩ := h.mean a1 ce
    rwa [h.mean_eq a1 ce hv hF, hz2] at hv
  · obtain ⟨A, hA, rA, cA⟩ := h.kernel a1 hq ce cq
    obtain ⟨ws, hw, lw⟩ := h.value hq cq
    refine ⟨A, hA, rA.trans ly.symm, cA, fun s hs t ht => ?_⟩
    have hl' : zss[k].length = xs.length := hz.2.2.2.symm.trans ly
    rw [(h.kernel_eq a1 hq ce cq hA hF hw).e s (by show s < zss[k].length; omega) t (by show t < ws.length; omega)]
    show ((reading ops).S m1).C (zss[k].getD s 0) (ws.getD t 0) = 0
    rw [List.getD_eq_getElem?_getD, List.getElem?_eq_getElem (by omega)]
    exact hC _ (List.getElem_mem hk') _ (List.getElem_mem _) _

end

/-! ## Examples -/

/-- An observation of `f` (process 0), and one of `f + g` (process 2). -/
noncomputable def firstPair : Fdd × List ℝ := (⟨0, .num [[0]], eye 1⟩, [1])

noncomputable def secondPair : Fdd × List ℝ := (⟨2, .num [[1], [2]], eye 2⟩, [2, 3])

/-- Two GPs `f` and `g`; `f + g`; two cross processes; posteriors given the first pair (1), given also the second (2),
given both at once (3) and given both in the other order (4). -/
noncomputable def trial : List Op :=
  [.gp .zero affine none none,
   .gp (.fn (.const 2)) affine (some 0) none,
   .add 0 1 [0],
   .cross [0, 2] [0],
   .cross [2, 0] [0],
   .condition 0 (.exact 0 (.num [[0]]) (eye 1) [1]),
   .condition 1 (.exact 2 (.num [[1], [2]]) (eye 2) [2, 3]),
   .condition 0 (jointObs 3 [firstPair, secondPair]),
   .condition 0 (jointObs 4 [secondPair, firstPair])]

theorem blockDiag_eye (a b : ℕ) : (Mat.blockDiag [eye a, eye b]).sq (a + b) = 1 := by
  ext i j
  show (Mat.blockDiag [eye a, eye b]).e i j = _
  rw [Matrix.one_apply]
  simp only [Mat.blockDiag, Mat.dsum, eye, Fin.ext_iff]
  have hi := i.2
  have hj := j.2
  by_cases h1 : (i : ℕ) < a <;> by_cases h2 : (j : ℕ) < a <;> simp only [h1, h2, if_true, if_false]
  · rw [if_neg (by omega)]
  · rw [if_neg (by omega)]
  · have h3 : (i : ℕ) - a < b := by omega
    have h4 : (j : ℕ) - a < b := by omega
    simp only [h3, h4, if_true]
    exact if_congr (by omega) rfl rfl

theorem trial_noisy : Noisy trial := by
  intro m obs h
  simp only [trial, jointObs, List.mem_cons, List.not_mem_nil, or_false, reduceCtorEq, false_or,
    Op.condition.injEq] at h
  rcases h with ⟨_, rfl⟩ | ⟨_, rfl⟩ | ⟨_, rfl⟩ | ⟨_, rfl⟩
  · exact eye_posDef _ _
  · exact eye_posDef _ _
  · show (Mat.sq _ (1 + 2)).PosDef
    exact (blockDiag_eye 1 2) ▸ (Matrix.PosDef.one : (1 : Matrix (Fin 3) (Fin 3) ℝ).PosDef)
  · show (Mat.sq _ (2 + 1)).PosDef
    exact (blockDiag_eye 2 1) ▸ (Matrix.PosDef.one : (1 : Matrix (Fin 3) (Fin 3) ℝ).PosDef)

theorem trial_regular : Regular (off fun p => p = 3 ∨ p = 4) trial := by
  refine .of_noisy_off ⟨?_, ?_, ?_, fun m obs h => (trial_noisy m obs h).psd, smooth_of (by simp [trial])⟩ trial_noisy
    (.of_exact (by simp [trial, jointObs]))
  · have hs := affine_psd
    intro o ho
    simp only [trial, List.mem_cons, List.not_mem_nil, or_false] at ho
    rcases ho with rfl | rfl | rfl | rfl | rfl | rfl | rfl | rfl | rfl
    all_goals first
      | exact ⟨trivial, trivial, hs⟩
      | trivial
      | (intro h; cases h)
  · refine splits (ops := trial) (P := fun before o => ∀ m, ∀ e ∈ o.written (runOps before {}).gps.length m,
      ¬ (e.1 = 3 ∨ e.1 = 4) → e.2.TotalOff fun p => p = 3 ∨ p = 4) ⟨?_, ?_, ?_, ?_, ?_, ?_, ?_, ?_, ?_, trivial⟩
    all_goals
      intro m e he
      first
        | exact (List.not_mem_nil he).elim
        | have he := List.mem_singleton.1 he
          subst he
          first
            | exact fun h => (h (.inl rfl)).elim
            | exact fun h => (h (.inr rfl)).elim
            | exact fun _ => ⟨trivial, trivial⟩
            | exact fun _ => ⟨by decide, by decide⟩
  · intro before m obs after e hm
    refine splits (ops := trial) (P := fun before o => ∀ m obs, o = .condition m obs → ObsFitsOff (fun p => p = 3 ∨ p = 4) before m obs) ⟨?_, ?_, ?_, ?_, ?_, ?_, ?_, ?_, ?_, trivial⟩
      before _ after e m obs rfl
    all_goals
      intro m obs e
      first
        | (exfalso; cases e; done)
        | cases e
    · exact ⟨rfl, rfl, rfl, .inl ⟨⟨_, rfl⟩, attached_iff.2 rfl, by decide⟩⟩
    · exact ⟨rfl, rfl, rfl, .inl ⟨⟨_, rfl⟩, attached_iff.2 rfl, by decide⟩⟩
    · refine ⟨rfl, rfl, rfl, .inr ⟨trial.take 3, [0, 2], [0], (trial.take 7).drop 4, rfl, rfl,
        attached_iff.2 rfl, ?_, by decide, ?_⟩⟩
      · refine ⟨_, by simp, rfl, fun a ha => ?_⟩
        simp only [List.map_cons, List.map_nil, List.mem_cons, List.not_mem_nil, or_false] at ha
        rcases ha with rfl | rfl
        · exact ⟨0, by simp, _, rfl⟩
        · exact ⟨2, by simp, _, rfl⟩
      · intro i hi hne
        have : i ∈ [0, 1, 2, 3, 4] := hi
        show i ∈ [0, 1, 2]
        simp only [List.mem_cons, List.not_mem_nil, or_false] at this ⊢
        omega
    · refine ⟨rfl, rfl, rfl, .inr ⟨trial.take 4, [2, 0], [0], (trial.take 8).drop 5, rfl, rfl,
        attached_iff.2 rfl, ?_, by decide, ?_⟩⟩
      · refine ⟨_, by simp, rfl, fun a ha => ?_⟩
        simp only [List.map_cons, List.map_nil, List.mem_cons, List.not_mem_nil, or_false] at ha
        rcases ha with rfl | rfl
        · exact ⟨2, by simp, _, rfl⟩
        · exact ⟨0, by simp, _, rfl⟩
      · intro i hi hne
        have : i ∈ [0, 1, 2, 3, 4] := hi
        show i ∈ [0, 1, 2, 3]
        simp only [List.mem_cons, List.not_mem_nil, or_false] at this ⊢
        omega

theorem trial_gives : Gives trial (trial.take 5) 0 (.exact 0 (.num [[0]]) (eye 1) [1]) 1 ∧
    Gives trial (trial.take 6) 1 (.exact 2 (.num [[1], [2]]) (eye 2) [2, 3]) 2 ∧
    Gives trial (trial.take 7) 0 (jointObs 3 [firstPair, secondPair]) 3 ∧
    Gives trial (trial.take 8) 0 (jointObs 4 [secondPair, firstPair]) 4 :=
  ⟨⟨⟨trial.drop 6, rfl⟩, (by decide : 0 < 1), rfl⟩, ⟨⟨trial.drop 7, rfl⟩, (by decide : 1 < 2), rfl⟩,
    ⟨⟨trial.drop 8, rfl⟩, (by decide : 0 < 3), rfl⟩, ⟨⟨trial.drop 9, rfl⟩, (by decide : 0 < 4), rfl⟩⟩

theorem trial_fits : Fits (off fun p => p = 3 ∨ p = 4) firstPair ∧ Fits (off fun p => p = 3 ∨ p = 4) secondPair :=
  ⟨⟨_, rfl, rows_off (by decide), rfl, rfl, rfl⟩, ⟨_, rfl, rows_off (by decide), rfl, rfl, rfl⟩⟩

theorem trial_joint : ObsOf trial 0 [firstPair, secondPair] (jointObs 3 [firstPair, secondPair]) ∧
    ObsOf trial 0 [secondPair, firstPair] (jointObs 4 [secondPair, firstPair]) := by
  refine ⟨.joint (b := trial.take 3) (qs := [0, 2]) (ord := [0]) ⟨⟨trial.drop 4, rfl⟩, rfl, 0, attached_iff.2 rfl⟩
    (attached_iff.2 rfl) ?_, .joint (b := trial.take 4) (qs := [2, 0]) (ord := [0]) ⟨⟨trial.drop 5, rfl⟩, rfl, 0, attached_iff.2 rfl⟩
    (attached_iff.2 rfl) ?_⟩ <;> decide +revert

/-- C18 for `trial`: `g` and `f + g` at any inputs. -/
example (xs ys : List Pt) :
    (∀ v, MeanCall (runOps trial {}) 2 1 (.num xs) v ↔ MeanCall (runOps trial {}) 3 1 (.num xs) v) ∧
    ∃ A A', KernelCall (runOps trial {}) 2 1 2 (.num xs) (.num ys) A ∧ KernelCall (runOps trial {}) 3 1 2 (.num xs) (.num ys) A' ∧
      A.Eqv A' :=
  C18_regular trial_regular trial_gives.1 trial_gives.2.1 trial_gives.2.2.1 (l1 := [firstPair]) (l2 := [secondPair])
    (.single _ _) (.single _ _) trial_joint.1 (by simpa using trial_fits.1) (by simpa using trial_fits.2)
    ⟨firstPair, by simp, Nat.one_ne_zero⟩ ⟨secondPair, by simp, Nat.succ_ne_zero 1⟩
    (fun e he => by cases List.mem_singleton.1 he; exact attached_iff.2 rfl)
    (fun e he => by cases List.mem_singleton.1 he; exact attached_iff.2 rfl)
    (attached_iff.2 rfl) (attached_iff.2 rfl) (attached_iff.2 rfl) (attached_iff.2 rfl) (rows_off (by decide)) (rows_off (by decide))

/-- C19 for `trial`. -/
example (xs ys : List Pt) :
    (∀ v, MeanCall (runOps trial {}) 3 1 (.num xs) v ↔ MeanCall (runOps trial {}) 4 1 (.num xs) v) ∧
    ∃ A A', KernelCall (runOps trial {}) 3 1 2 (.num xs) (.num ys) A ∧ KernelCall (runOps trial {}) 4 1 2 (.num xs) (.num ys) A' ∧
      A.Eqv A' := by
  refine C19_regular trial_regular trial_gives.2.2.1 trial_gives.2.2.2 (.swap _ _ _) trial_joint.1 trial_joint.2 ?_
    ⟨firstPair, by simp, Nat.one_ne_zero⟩ ?_
    (attached_iff.2 rfl) (attached_iff.2 rfl) (attached_iff.2 rfl) (attached_iff.2 rfl) (rows_off (by decide)) (rows_off (by decide))
  all_goals
    intro e he
    simp only [List.mem_cons, List.not_mem_nil, or_false] at he
    rcases he with rfl | rfl
  · exact trial_fits.1
  · exact trial_fits.2
  · exact attached_iff.2 rfl
  · exact attached_iff.2 rfl

/-- C21 for `trial`: the variance of `f + g` in the first posterior; it has a variance at all inputs. -/
example (x : Pt) : ∃ A A', KernelCall (runOps trial {}) 0 2 2 (.num [x]) (.num [x]) A ∧
    KernelCall (runOps trial {}) 1 2 2 (.num [x]) (.num [x]) A' ∧ A'.e 0 0 ≤ A.e 0 0 := by
  obtain ⟨A', hA', _⟩ := trial_regular.kernel (m := 1) (p := 2) (q := 2) (attached_iff.2 rfl) (attached_iff.2 rfl)
    (xs := [x]) (ys := [x]) (rows_off (by decide)) (rows_off (by decide))
  obtain ⟨A, hA, _, _, h⟩ := C21_variance trial_gives.1 (i := 2) (attached_iff.2 rfl) (x := .num [x]) trivial hA'
  exact ⟨A, A', hA, hA', h 0⟩

/-- C21 for `trial`: covariances of `f` at two points. The matrix of them and the observed value is that of `a + b * Σ x`
with `a` and `b` independent. -/
example {x : Fin 2 → Pt} {A' : Fin 2 → Fin 2 → Mat}
    (hA' : ∀ s t, KernelCall (runOps trial {}) 1 0 0 (.num [x s]) (.num [x t]) (A' s t)) :
    (of fun s t => (A' s t).e 0 0).PosSemidef := by
  have val : ∀ {x y : Pt} {A : Mat}, KernelCall (runOps trial {}) 0 0 0 (.num [x]) (.num [y]) A →
      A.r = 1 ∧ A.e 0 0 = x.sum * y.sum + 1 := by
    intro x y A h
    have h' : KernelCall (runOps trial {}) 0 0 0 (.num [x]) (.num [y]) ⟨1, 1, fun i j => affine.val ([x].getD i []) ([y].getD j [])⟩ :=
      ⟨affine, 1, rfl, rfl⟩
    rw [h.unique h']
    exact ⟨rfl, rfl⟩
  refine C21_posSemidef trial_gives.1 Nat.one_ne_zero (eye_posDef 1 1).posSemidef (q := fun _ => 0)
    (fun _ => attached_iff.2 rfl) hA' fun Kz B A hK hB hA => ?_
  have h1 := (val hK).1
  have hf : ∀ a : Fin Kz.r, (a : ℕ) = 0 := fun a => by omega
  let f : Fin Kz.r ⊕ Fin 2 → ℝ := Sum.elim (fun _ => 0) fun s => (x s).sum
  have he : fromBlocks (Kz.sq Kz.r) (of fun a s => (B s).e a 0 : Matrix (Fin Kz.r) (Fin 2) ℝ)
      (of fun s a => (B s).e a 0) (of fun s t => (A s t).e 0 0) = vecMulVec f (star f) + vecMulVec 1 (star 1) := by
    ext i j
    rcases i with i | i <;> rcases j with j | j <;>
      simp only [fromBlocks_apply₁₁, fromBlocks_apply₁₂, fromBlocks_apply₂₁, fromBlocks_apply₂₂, Matrix.add_apply,
        vecMulVec_apply, star_trivial, Pi.one_apply, of_apply, Mat.sq, f, Sum.elim_inl, Sum.elim_inr, hf, (val hK).2, (val (hB _)).2,
        (val (hA _ _)).2] <;> simp
  rw [he]
  exact (posSemidef_vecMulVec_self_star f).add (posSemidef_vecMulVec_self_star 1)

/-- No noise. -/
noncomputable def none2 : Mat := ⟨2, 2, fun _ _ => 0⟩

/-- A GP, of which two values are observed without noise. -/
noncomputable def pinned : List Op :=
  [.gp .zero affine none none, .condition 0 (.exact 0 (.num [[0], [1]]) none2 [3, 5])]

theorem pinned_regular : Regular (off fun _ => False) pinned := by
  refine ⟨⟨TameOff.tame ⟨?_, ?_, ?_, ?_, smooth_of (by simp [pinned])⟩, ?_⟩⟩
  · intro o ho
    simp only [pinned, List.mem_cons, List.not_mem_nil, or_false] at ho
    rcases ho with rfl | rfl
    · exact ⟨trivial, trivial, affine_psd⟩
    · trivial
  · refine splits (ops := pinned) (P := fun before o => ∀ m, ∀ e ∈ o.written (runOps before {}).gps.length m,
      ¬ False → e.2.TotalOff fun _ => False) ⟨?_, ?_, trivial⟩
    · intro m e he
      have he := List.mem_singleton.1 he
      subst he
      exact fun _ => ⟨trivial, trivial⟩
    · exact fun m e he => (List.not_mem_nil he).elim
  · intro before m obs after e hm
    refine splits (ops := pinned) (P := fun before o => ∀ m obs, o = .condition m obs → ObsFitsOff (fun _ => False) before m obs) ⟨?_, ?_, trivial⟩ before _ after e m obs rfl
    · intro m obs e; cases e
    · intro m obs e
      cases e
      exact ⟨rfl, rfl, rfl, .inl ⟨⟨_, rfl⟩, attached_iff.2 rfl, not_false⟩⟩
  · intro m obs h
    simp only [pinned, List.mem_cons, List.not_mem_nil, or_false, reduceCtorEq, false_or, Op.condition.injEq] at h
    obtain ⟨_, rfl⟩ := h
    have : none2.sq 2 = 0 := rfl
    show (none2.sq 2).PosSemidef
    rw [this]; exact .zero
  · intro before m obs after e hm
    have hmem : Op.condition m obs ∈ pinned := by rw [e]; simp
    simp only [pinned, List.mem_cons, List.not_mem_nil, or_false, reduceCtorEq, false_or,
      Op.condition.injEq] at hmem
    obtain ⟨rfl, rfl⟩ := hmem
    intro A K hA hK
    have h' : KernelCall (runOps pinned {}) 0 0 0 (.num [[0], [1]]) (.num [[0], [1]])
        ⟨2, 2, fun i j => affine.val (([[0], [1]] : List Pt).getD i []) (([[0], [1]] : List Pt).getD j [])⟩ := ⟨affine, 1, rfl, rfl⟩
    rw [hA.unique h'] at hK
    cases hK
    show Matrix.PosDef (n := Fin 2) _
    refine PosDef.of_dotProduct_mulVec_pos ?_ fun v hv => ?_
    · ext i j
      fin_cases i <;> fin_cases j <;> simp [Mat.sq, none2, affine, KExpr.val]
    · have : v 0 ≠ 0 ∨ v 1 ≠ 0 := by
        by_contra hc
        push Not at hc
        exact hv (by ext i; fin_cases i <;> simp [hc])
      have hq : star v ⬝ᵥ (Mat.sq ⟨2, 2, fun i j => affine.val (([[0], [1]] : List Pt).getD i []) (([[0], [1]] : List Pt).getD j []) +
          none2.e i j⟩ 2 *ᵥ v) = (v 0 + v 1) ^ 2 + v 1 ^ 2 := by
        simp [dotProduct, mulVec, Fin.sum_univ_two, Mat.sq, none2, affine, KExpr.val]
        ring
      refine lt_of_lt_of_eq ?_ hq.symm
      rcases this with h | h
      · by_cases h1 : v 1 = 0
        · rw [h1, add_zero]; positivity
        · positivity
      · positivity

/-- C20 for `pinned`: its posterior mean at the inputs is the data. -/
example : MeanCall (runOps pinned {}) 1 0 (.num [[0], [1]]) [3, 5] :=
  (C20_regular pinned_regular (b := pinned.take 1) (m := 0) ⟨⟨[], rfl⟩, (by decide : 0 < 1), rfl⟩
    (.single ⟨0, .num [[0], [1]], none2⟩ [3, 5]) (fun e he => by
      cases List.mem_singleton.1 he; exact ⟨_, rfl, rows_off not_false, rfl, rfl, rfl⟩) ⟨_, List.mem_singleton.2 rfl, Nat.succ_ne_zero 1⟩
    (fun e he s t => by cases List.mem_singleton.1 he; rfl)
    (fun e he => by cases List.mem_singleton.1 he; exact attached_iff.2 rfl) (List.mem_singleton.2 rfl)).1

end Stheno
