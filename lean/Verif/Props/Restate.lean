import Verif.Restate
import Verif.Props.Pool
import Verif.Props.Arith
import Verif.Props.Derive
import Verif.Props.Joint
import Verif.Props.Jitter

/-!
# C59: observing a transformed process is observing the process
-/

namespace Stheno

open Matrix

/-- Two ways to write the same observation in measure `m`: of a process, and of the process multiplied by a number or function, with a number or function
added, with transformed inputs, or copied. The number is the logarithm of the factor by which the volume of a set of data changes. -/
inductive Restates (ops : List Op) (m : MId) : ℝ → Fdd × List ℝ → Fdd × List ℝ → Prop
  | refl (e : Fdd × List ℝ) : Restates ops m 0 e e
  | symm {J : ℝ} {e e' : Fdd × List ℝ} (h : Restates ops m J e e') : Restates ops m (-J) e' e
  | trans {J J' : ℝ} {e e' e'' : Fdd × List ℝ} (h : Restates ops m J e e') (h' : Restates ops m J' e' e'') : Restates ops m (J + J') e e''
  /-- `q = c * p` -/
  | scale {b : List Op} {p q : PId} {c : ℝ} (hm : Runs ops b (.scale p c) q) (hq : Attached (runOps ops {}) m q) (hc : c ≠ 0) (xs : List Pt) (N : Mat)
      (y : List ℝ) (hy : y.length = xs.length) : Restates ops m (xs.length * Real.log |c|) (⟨p, .num xs, N⟩, y) (⟨q, .num xs, ⟨N.r, N.c, fun i j => c * c * N.e i j⟩⟩, y.map (c * ·))
  /-- `q = f * p` -/
  | fmul {b : List Op} {p q : PId} {f : Fn} (hm : Runs ops b (.fmul p f) q) (hq : Attached (runOps ops {}) m q) (hf : f.Plain) (xs : List Pt)
      (h0 : ∀ x ∈ xs, f.at x ≠ 0) (N : Mat) (hN : N.r = xs.length) (y : List ℝ) (hy : y.length = xs.length) :
      Restates ops m (xs.map fun x => Real.log |f.at x|).sum (⟨p, .num xs, N⟩, y)
        (⟨q, .num xs, ⟨N.r, N.c, fun i j => f.at (xs.getD i []) * f.at (xs.getD j []) * N.e i j⟩⟩, List.zipWith (fun x t => f.at x * t) xs y)
  /-- `q = p + f` -/
  | addFn {b : List Op} {p q : PId} {f : Fn} (hm : Runs ops b (.addFn p f) q) (hq : Attached (runOps ops {}) m q) (hf : f.Plain) (xs : List Pt) (N : Mat)
      (hN : N.r = xs.length) (y : List ℝ) (hy : y.length = xs.length) :
      Restates ops m 0 (⟨p, .num xs, N⟩, y) (⟨q, .num xs, N⟩, List.zipWith (fun x t => t + f.at x) xs y)
  /-- `q` is `p` at transformed inputs -/
  | pre {b : List Op} {p q : PId} {t : InTr} (hm : Runs ops b (.pre p t) q) (hq : Attached (runOps ops {}) m q) {xs ys : List Pt}
      (ht : t.apply (.num xs) = some (.num ys)) (N : Mat) (y : List ℝ) : Restates ops m 0 (⟨p, .num ys, N⟩, y) (⟨q, .num xs, N⟩, y)
  /-- `q = m'(p)` -/
  | copy {b : List Op} {p q : PId} {m' : MId} (hm : Runs ops b (.call m' p) q) (hq : Attached (runOps ops {}) m q) (x : Input) (N : Mat)
      (y : List ℝ) : Restates ops m 0 (⟨p, x, N⟩, y) (⟨q, x, N⟩, y)

/-- Several observations. -/
inductive RestatesAll (ops : List Op) (m : MId) : ℝ → List (Fdd × List ℝ) → List (Fdd × List ℝ) → Prop
  | nil : RestatesAll ops m 0 [] []
  | cons {J J' : ℝ} {e e' : Fdd × List ℝ} {k k' : List (Fdd × List ℝ)} (h : Restates ops m J e e') (h' : RestatesAll ops m J' k k') :
      RestatesAll ops m (J + J') (e :: k) (e' :: k')

section
variable {V : Type} [AddCommGroup V] [Module ℝ V] {I : Interp V} {G : Dom} {D : PId → ℕ} {ops b b' : List Op} {m m1 m2 : MId} {p q q' : PId}
  {xs ys : List Pt} {o o' : Obs} {k k' : List (Fdd × List ℝ)} {l l' : List (Fdd × Vals)} {e e' : Fdd × List ℝ} {J r r' : ℝ}

/-- The values of an observed FDD, and noise and data of the right sizes. -/
def Interp.Block (I : Interp V) (m : MId) (e : Fdd × List ℝ) (zs : List V) : Prop :=
  I.F m e.1.p e.1.x = some zs ∧ e.1.noise.r = zs.length ∧ e.1.noise.c = zs.length ∧ e.2.length = zs.length

theorem fnAt_length {f : Fn} (hf : f.Plain) {x : Input} {n : ℕ} {us : List ℝ} (h : I.fnAt f x n = some us) : us.length = n := by
  cases f with
  | user f =>
    cases x with
    | num xs =>
      simp only [Interp.fnAt] at h
      split_ifs at h with hl
      cases h
      simpa using hl
    | _ => cases h
  | const c =>
    cases h
    simp
  | meanOf => exact hf.elim

theorem sum_map_range (g : Pt → ℝ) : ∀ xs : List Pt, (xs.map g).sum = ∑ i ∈ Finset.range xs.length, g (xs.getD i [])
  | [] => rfl
  | x :: xs => by
    rw [List.map_cons, List.sum_cons, sum_map_range g xs, List.length_cons, Finset.sum_range_succ']
    simp [add_comm]

/-- Observations that are written in two ways are the same in other units. -/
theorem Restates.values (h : I.Reads ops) (hr : Restates ops m J e e') :
    (∀ zs, I.Block m e zs → ∃ zs', I.Block m e' zs' ∧ Rescaled I.one J zs e.1.noise e.2 zs' e'.1.noise e'.2) ∧
    ∀ zs', I.Block m e' zs' → ∃ zs, I.Block m e zs ∧ Rescaled I.one J zs e.1.noise e.2 zs' e'.1.noise e'.2 := by
  induction hr with
  | refl e => exact ⟨fun zs hz => ⟨zs, hz, .refl⟩, fun zs hz => ⟨zs, hz, .refl⟩⟩
  | symm _ ih => exact ⟨fun zs hz => by obtain ⟨zs', h1, h2⟩ := ih.2 zs hz; exact ⟨zs', h1, h2.symm⟩,
      fun zs hz => by obtain ⟨zs', h1, h2⟩ := ih.1 zs hz; exact ⟨zs', h1, h2.symm⟩⟩
  | trans _ _ ih ih' =>
    refine ⟨fun zs hz => ?_, fun zs hz => ?_⟩
    · obtain ⟨z1, h1, h2⟩ := ih.1 zs hz
      obtain ⟨z2, h3, h4⟩ := ih'.1 z1 h1
      exact ⟨z2, h3, h2.trans h4⟩
    · obtain ⟨z1, h1, h2⟩ := ih'.2 zs hz
      obtain ⟨z2, h3, h4⟩ := ih.2 z1 h1
      exact ⟨z2, h3, h4.trans h2⟩
  | @scale b p q c hm hq hc xs N y hyl =>
    have hF := h.scale hq (hm.of (d := .scale p c) rfl) (x := .num xs) trivial
    have hR : ∀ zs : List V, y.length = zs.length →
        Rescaled I.one (xs.length * Real.log |c|) zs N y (zs.map (c • ·)) ⟨N.r, N.c, fun i j => c * c * N.e i j⟩ (y.map (c * ·)) := by
      intro zs hy
      refine ⟨by simp, fun _ => c, fun _ => 0, fun _ => hc, by simp [← hyl, hy], fun i hi => ?_, fun i hi j hj => rfl, fun i hi => ?_⟩
      · simp [hi]
      · simp [hy, hi]
    refine ⟨fun zs ⟨h1, h2, h3, h4⟩ => ⟨zs.map (c • ·), ⟨?_, by simpa using h2, by simpa using h3, by simpa using h4⟩, hR zs h4⟩, fun zs' ⟨h1, h2, h3, h4⟩ => ?_⟩
    · show I.F m q (.num xs) = _
      rw [hF, show I.F m p (.num xs) = some zs from h1]
      rfl
    · obtain ⟨zs, hz, rfl⟩ := Option.map_eq_some_iff.1 (hF.symm.trans h1)
      exact ⟨zs, ⟨hz, by simpa using h2, by simpa using h3, by simpa using h4⟩, hR zs (by simpa using h4)⟩
  | @fmul b p q f hm hq hf xs h0 N hN y hyl =>
    have hF := h.fmul hq (hm.of (d := .fmul p f) rfl) (x := .num xs) trivial
    have hval : ∀ zs : List V, xs.length = zs.length → I.F m p (.num xs) = some zs →
        I.F m q (.num xs) = some (List.zipWith (fun v u => u • v) zs (xs.map fun x => f.at x)) := by
      intro zs hl hz
      rw [hF, hz]
      show (I.fnAt f (.num xs) zs.length >>= _) = _
      rw [← hl, Interp.fnAt_plain hf xs]
      rfl
    have hR : ∀ zs : List V, xs.length = zs.length → y.length = zs.length → Rescaled I.one (xs.map fun x => Real.log |f.at x|).sum zs N y (List.zipWith (fun v u => u • v) zs (xs.map fun x => f.at x))
        ⟨N.r, N.c, fun i j => f.at (xs.getD i []) * f.at (xs.getD j []) * N.e i j⟩ (List.zipWith (fun x t => f.at x * t) xs y) := by
      intro zs hl hy
      refine ⟨by simp [hl], fun i => if i < xs.length then f.at (xs.getD i []) else 1, fun _ => 0, fun i => ?_, ?_, fun i hi => ?_, fun i hi j hj => ?_, fun i hi => ?_⟩
      · dsimp only
        split_ifs with h
        · rw [List.getD_eq_getElem _ _ h]
          exact h0 _ (List.getElem_mem h)
        · exact one_ne_zero
      · rw [← hl, sum_map_range]
        exact Finset.sum_congr rfl fun i hi => by dsimp only; rw [if_pos (Finset.mem_range.1 hi)]
      · have hx : i < xs.length := by omega
        simp [hi, hx]
      · have hx : i < xs.length := by omega
        have hx' : j < xs.length := by omega
        simp only [hx, hx', if_true]
      · have hx : i < xs.length := by omega
        have hx' : i < y.length := by omega
        simp [hx, hx']
    refine ⟨fun zs ⟨h1, h2, h3, h4⟩ => ?_, fun zs' ⟨h1, h2, h3, h4⟩ => ?_⟩
    · have hl : xs.length = zs.length := hN.symm.trans h2
      have hy : y.length = zs.length := h4
      exact ⟨_, ⟨hval zs hl h1, by simpa [hl] using h2, by simpa [hl] using h3, by simp [hl, hy]⟩, hR zs hl hy⟩
    · obtain ⟨zs, hz, e⟩ := bind_some (hF.symm.trans h1)
      obtain ⟨us, hu, e⟩ := bind_some e
      have lu := fnAt_length hf hu
      cases e
      simp only [List.length_zipWith, lu, min_self] at h2 h3 h4
      have hl : xs.length = zs.length := hN.symm.trans h2
      rw [← hl, Interp.fnAt_plain hf xs] at hu
      cases hu
      exact ⟨zs, ⟨hz, h2, h3, hyl.trans hl⟩, hR zs hl (hyl.trans hl)⟩
  | @addFn b p q f hm hq hf xs N hN y hyl =>
    have hF := h.addFn hq (hm.of (d := .addFn p f) rfl) (x := .num xs) trivial
    have hval : ∀ zs : List V, xs.length = zs.length → I.F m p (.num xs) = some zs →
        I.F m q (.num xs) = some (List.zipWith (fun v u => v + u • I.one) zs (xs.map fun x => f.at x)) := by
      intro zs hl hz
      rw [hF, hz]
      show (I.fnAt f (.num xs) zs.length >>= _) = _
      rw [← hl, Interp.fnAt_plain hf xs]
      rfl
    have hR : ∀ zs : List V, xs.length = zs.length → y.length = zs.length → Rescaled I.one 0 zs N y (List.zipWith (fun v u => v + u • I.one) zs (xs.map fun x => f.at x))
        N (List.zipWith (fun x t => t + f.at x) xs y) := by
      intro zs hl hy
      refine ⟨by simp [hl], fun _ => 1, fun i => f.at (xs.getD i []), fun i => one_ne_zero, by simp, fun i hi => ?_, fun i hi j hj => by simp, fun i hi => ?_⟩
      · have hx : i < xs.length := by omega
        simp [hi, hx]
      · have hx : i < xs.length := by omega
        have hx' : i < y.length := by omega
        simp [hx, hx']
    refine ⟨fun zs ⟨h1, h2, h3, h4⟩ => ?_, fun zs' ⟨h1, h2, h3, h4⟩ => ?_⟩
    · have hl : xs.length = zs.length := hN.symm.trans h2
      have hy : y.length = zs.length := h4
      exact ⟨_, ⟨hval zs hl h1, by simpa [hl] using h2, by simpa [hl] using h3, by simp [hl, hy]⟩, hR zs hl hy⟩
    · obtain ⟨zs, hz, e⟩ := bind_some (hF.symm.trans h1)
      obtain ⟨us, hu, e⟩ := bind_some e
      have lu := fnAt_length hf hu
      cases e
      simp only [List.length_zipWith, lu, min_self] at h2 h3 h4
      have hl : xs.length = zs.length := hN.symm.trans h2
      rw [← hl, Interp.fnAt_plain hf xs] at hu
      cases hu
      exact ⟨zs, ⟨hz, h2, h3, hyl.trans hl⟩, hR zs hl (hyl.trans hl)⟩
  | @pre b p q t hm hq xs ys ht N y =>
    have hF := h.pre hq (hm.of (d := .pre p t) rfl) (x := .num xs) trivial
    rw [ht] at hF
    replace hF : I.F m q (.num xs) = I.F m p (.num ys) := hF
    exact ⟨fun zs ⟨h1, h2⟩ => ⟨zs, ⟨hF.trans h1, h2⟩, .refl⟩, fun zs ⟨h1, h2⟩ => ⟨zs, ⟨hF.symm.trans h1, h2⟩, .refl⟩⟩
  | @copy b p q m' hm hq x N y =>
    have hF := h.copy hq (hm.of (d := .copy p) rfl)
    exact ⟨fun zs ⟨h1, h2⟩ => ⟨zs, ⟨(congrFun hF _).trans h1, h2⟩, .refl⟩, fun zs ⟨h1, h2⟩ => ⟨zs, ⟨(congrFun hF _).symm.trans h1, h2⟩, .refl⟩⟩

/-- The same for several observations. -/
theorem Restates.blocks (h : I.Reads ops) (hr : RestatesAll ops m J k k') {zss : List (List V)} (hb : I.Blocks m k zss) :
    ∃ zss', I.Blocks m k' zss' ∧ Rescaled I.one J zss.flatten (Mat.blockDiag (k.map (·.1.noise))) (k.flatMap (·.2))
      zss'.flatten (Mat.blockDiag (k'.map (·.1.noise))) (k'.flatMap (·.2)) := by
  induction hr generalizing zss with
  | nil =>
    cases hb
    exact ⟨[], .nil, .refl⟩
  | cons e _ ih =>
    cases hb with
    | cons hv hb =>
      obtain ⟨zss', hb', hR⟩ := ih hb
      obtain ⟨zs', hv', hR'⟩ := (e.values h).1 _ hv
      exact ⟨zs' :: zss', .cons hv' hb', hR'.append hR hv.2.1 hv.2.2.1 hv'.2.1 hv'.2.2.1 hv.2.2.2 hv'.2.2.2⟩

/-- The log-density in other units. -/
theorem Rescaled.logpdf {S : SO V} {one : V} {zs zs' : List V} {N N' : Mat} {y y' : List ℝ} (hr : Rescaled one J zs N y zs' N' y') (hE : S.E one = 1)
    (hC : ∀ v, S.C one v = 0) (hp : (noisyGram S zs N).PosDef) :
    (obsNormal S zs' N').logpdfFull (fun i => y'.getD i 0) = (obsNormal S zs N).logpdfFull (fun i => y.getD i 0) - J := by
  have hl := hr.len
  obtain ⟨e, d, h0, hJ, -, hg, hres⟩ := hr.parts (S := S) hE hC
  rw [← logpdfFull_equiv (obsNormal S zs' N') e hl.symm]
  set D : Matrix (Fin zs.length) (Fin zs.length) ℝ := diagonal d with hD
  have hd : D.det ≠ 0 := by
    rw [hD, det_diagonal]
    exact Finset.prod_ne_zero_iff.2 fun i _ => h0 i
  have hT : Dᵀ = D := by rw [hD, diagonal_transpose]
  have hres' : ((fun i : Fin zs'.length => y'.getD i 0) ∘ e - (obsNormal S zs' N').mean ∘ e) = D *ᵥ ((fun i : Fin zs.length => y.getD i 0) - (obsNormal S zs N).mean) := by
    funext i
    rw [hD, mulVec_diagonal]
    exact hres i
  have hJ' : J = Real.log |D.det| := by
    rw [hJ, hD, det_diagonal, Finset.abs_prod, Real.log_prod fun i _ => abs_ne_zero.2 (h0 i)]
  have hl' : Real.log (D * noisyGram S zs N * D).det = Real.log (noisyGram S zs N).det + 2 * J := by
    rw [det_mul, det_mul, hJ', Real.log_mul (mul_ne_zero hd hp.det_pos.ne') hd, Real.log_mul hd hp.det_pos.ne', Real.log_abs]
    ring
  unfold Normal.logpdfFull
  dsimp only
  rw [hres', show (obsNormal S zs' N').var.submatrix e e = D * noisyGram S zs N * D from hg, hl',
    show (obsNormal S zs N).var = noisyGram S zs N from rfl]
  have key : (D *ᵥ ((fun i : Fin zs.length => y.getD i 0) - (obsNormal S zs N).mean)) ⬝ᵥ
      ((D * noisyGram S zs N * D)⁻¹ *ᵥ (D *ᵥ ((fun i : Fin zs.length => y.getD i 0) - (obsNormal S zs N).mean))) =
      ((fun i : Fin zs.length => y.getD i 0) - (obsNormal S zs N).mean) ⬝ᵥ
        ((noisyGram S zs N)⁻¹ *ᵥ ((fun i : Fin zs.length => y.getD i 0) - (obsNormal S zs N).mean)) := by
    have hDu : IsUnit D.det := isUnit_iff_ne_zero.2 hd
    rw [Matrix.mul_inv_rev, Matrix.mul_inv_rev, mulVec_mulVec, Matrix.mul_assoc, Matrix.mul_assoc, nonsing_inv_mul _ hDu, Matrix.mul_one, ← mulVec_mulVec,
      dotProduct_mulVec, ← mulVec_transpose, transpose_nonsing_inv, hT, mulVec_mulVec, nonsing_inv_mul _ hDu, one_mulVec]
  rw [key]
  ring

/-- The log-density does not depend on the order. -/
theorem Reorder.logpdf {S : SO V} {zs zs' : List V} {N N' : Mat} {y y' : List ℝ} (hr : Reorder zs N y zs' N' y') :
    (obsNormal S zs' N').logpdfFull (fun i => y'.getD i 0) = (obsNormal S zs N).logpdfFull (fun i => y.getD i 0) := by
  obtain ⟨e, h1, h2, h3⟩ := hr
  rw [← logpdfFull_equiv (obsNormal S zs' N') e (by simpa using Fintype.card_congr e)]
  congr 1
  · unfold obsNormal
    congr 1
    · funext i
      exact congrArg S.E (h1 i)
    · ext i j
      show S.C (zs'.get (e i)) (zs'.get (e j)) + N'.e (e i) (e j) = S.C (zs.get i) (zs.get j) + N.e i j
      rw [h1, h1, h2]
  · funext i
    exact h3 i

/-- **C59**, for the values of the processes. -/
theorem C59_reading {l1 l2 : List (Fdd × List ℝ)} (h : I.Reads ops) (hf : I.Firm ops) (g : Gives ops b m o m1) (g' : Gives ops b' m o' m2)
    (ho : ObsOf ops m l1 o) (ho' : ObsOf ops m l2 o') (hp : l1.Perm k) (hr : RestatesAll ops m J k k') (hp' : k'.Perm l2)
    (h1 : ∀ e ∈ l1, Fits G e) (h2 : ∀ e ∈ l2, Fits G e) {zss : List (List V)} (hb : I.Blocks m l1 zss) : I.S m1 = I.S m2 := by
  obtain ⟨zk, bk, rk⟩ := hb.reorder hp
  obtain ⟨zk', bk', hR⟩ := Restates.blocks h hr bk
  obtain ⟨z2, b2, r2⟩ := bk'.reorder hp'
  obtain ⟨u, pu⟩ := g.blocks_any h hf ho hb h1
  obtain ⟨u', -⟩ := g'.blocks_any h hf ho' b2 h2
  have oE := h.laws.one_E m
  have oC := h.laws.one_C m
  have pk := rk.posDef (S := I.S m) pu
  have pk' := hR.posDef oE oC pk
  have uk := SO.observe_isUpdate (S := I.S m) (y := k.flatMap (·.2)) bk.sizes.1 bk.sizes.2.1
  have uk' := SO.observe_isUpdate (S := I.S m) (y := k'.flatMap (·.2)) bk'.sizes.1 bk'.sizes.2.1
  obtain ⟨c1, e1⟩ := u.reorder uk rk pu
  obtain ⟨c2, e2⟩ := uk.rescaled uk' hR pk oE oC
  obtain ⟨c3, e3⟩ := uk'.reorder u' r2 pk'
  refine SO.ext' (fun a b => by rw [c1, c2, c3]) fun a => ?_
  rw [e1 hb.sizes.2.2 bk.sizes.2.2, e2 bk.sizes.2.2 bk'.sizes.2.2, e3 bk'.sizes.2.2 b2.sizes.2.2]

/-- **C59**, for log-densities and the values of the processes. -/
theorem C59_logpdf_reading (h : I.Reads ops) (ht : Tells (Dead G) D ops) (c1 : Logpdf ops b m l r) (c2 : Logpdf ops b' m l' r')
    (hl : ∀ e ∈ l, FitsV G e) (hl' : ∀ e ∈ l', FitsV G e) (hp : (l.map available).Perm k) (hr : RestatesAll ops m J k k')
    (hp' : k'.Perm (l'.map available)) {zss : List (List V)} (hb : I.Blocks m (l.map available) zss) : r' = r - J := by
  obtain ⟨zk, bk, rk⟩ := hb.reorder hp
  obtain ⟨zk', bk', hR⟩ := Restates.blocks h hr bk
  obtain ⟨z2, b2, r2⟩ := bk'.reorder hp'
  obtain ⟨v1, p1⟩ := c1.value h ht hl hb
  obtain ⟨v2, -⟩ := c2.value h ht hl' b2
  rw [v1, v2, r2.logpdf, hR.logpdf (h.laws.one_E m) (h.laws.one_C m) (rk.posDef p1), rk.logpdf]

/-- **C59.** In regular programs: measures conditioned on observations and on the same observations written in terms of other processes, in all notations,
with missing data and in any order, have means and kernels that return the same. -/
theorem C59_regular (h : Regular G ops) (ht : Tells (Dead G) D ops) (c1 : Conditioned ops b m l m1) (c2 : Conditioned ops b' m l' m2)
    (hl : ∀ e ∈ l, FitsV G e) (hl' : ∀ e ∈ l', FitsV G e) (hp : (l.map available).Perm k) (hr : RestatesAll ops m J k k')
    (hp' : k'.Perm (l'.map available)) (hq : Attached (runOps b {}) m q) (kq : Attached (runOps b' {}) m q)
    (hq' : Attached (runOps b {}) m q') (kq' : Attached (runOps b' {}) m q') (cq : Rows (G q) xs) (cq' : Rows (G q') ys) :
    (∀ v, MeanCall (runOps ops {}) m1 q (.num xs) v ↔ MeanCall (runOps ops {}) m2 q (.num xs) v) ∧
    ∃ A A', KernelCall (runOps ops {}) m1 q q' (.num xs) (.num ys) A ∧ KernelCall (runOps ops {}) m2 q q' (.num xs) (.num ys) A' ∧
      A.Eqv A' := by
  obtain ⟨b1, o1, p1, g1, ho1, ha1⟩ := c1.gives ht hl
  obtain ⟨b2, o2, p2, g2, ho2, ha2⟩ := c2.gives ht hl'
  have fits : ∀ {l : List (Fdd × Vals)}, (∀ e ∈ l, FitsV G e) → ∀ e ∈ l.map available, Fits G e := by
    intro l hl e he
    obtain ⟨e', he', rfl⟩ := List.mem_map.1 he
    exact (hl e' he').fits
  obtain ⟨zss, hb⟩ := h.blocks (m := m) (l := l.map available) (fits hl) fun e he => by
    obtain ⟨e', he', rfl⟩ := List.mem_map.1 he
    exact g1.attached_prior (ha1 e' he')
  exact h.same (b := b) (b' := b') (m := m) (C59_reading h.reads h.firm g1 g2 ho1 ho2 hp hr hp' (fits hl) (fits hl') hb)
    (fun q hq kq => ⟨g1.attached (attached_pre hq p1), g2.attached (attached_pre kq p2), by
      rw [(g1.law h.reads).1 q (attached_pre hq p1), (g2.law h.reads).1 q (attached_pre kq p2)]⟩) hq kq hq' kq' cq cq'

/-- **C59.** The log-density of data is that of the same data written in terms of other processes, corrected for the change of volume, in all notations, with
missing data and in any order. -/
theorem C59_logpdf (h : Regular G ops) (ht : Tells (Dead G) D ops) (c1 : Logpdf ops b m l r) (c2 : Logpdf ops b' m l' r')
    (hl : ∀ e ∈ l, FitsV G e) (hl' : ∀ e ∈ l', FitsV G e) (ha : ∀ e ∈ l, Attached (runOps ops {}) m e.1.p) (hp : (l.map available).Perm k)
    (hr : RestatesAll ops m J k k') (hp' : k'.Perm (l'.map available)) : r' = r - J := by
  obtain ⟨zss, hb⟩ := h.blocks (m := m) (l := l.map available) (fun e he => by
    obtain ⟨e', he', rfl⟩ := List.mem_map.1 he
    exact (hl e' he').fits) fun e he => by
    obtain ⟨e', he', rfl⟩ := List.mem_map.1 he
    exact ha e' he'
  exact C59_logpdf_reading h.reads ht c1 c2 hl hl' hp hr hp' hb

end

/-! ## An example -/

/-- A temperature in one unit, observed at two times. -/
noncomputable def celsius : Fdd × Vals := (⟨0, .num [[0], [1]], eye 2⟩, [some 1, some 2])

/-- The same in another unit. -/
noncomputable def fahrenheit : Fdd × Vals := (⟨2, .num [[0], [1]], ⟨2, 2, fun i j => if i = j then 4 else 0⟩⟩, [some 34, some 36])

/-- A temperature `p`, the same in another unit `2 * p + 32`, observations of the one and of the other, and the processes of which log-densities are computed. -/
noncomputable def units : List Op :=
  [.gp .zero (.prim fun _ _ => 1) none none, .scale 0 2, .addFn 1 (.const 32), .condition 0 (.exact 0 (.num [[0], [1]]) (eye 2) [1, 2]),
    .condition 0 (.exact 2 (.num [[0], [1]]) ⟨2, 2, fun i j => if i = j then 4 else 0⟩ [34, 36]), .call 0 0, .call 0 2]

theorem four_posDef : ((⟨2, 2, fun i j => if i = j then 4 else 0⟩ : Mat).sq 2).PosDef := by
  have : (⟨2, 2, fun i j => if i = j then 4 else 0⟩ : Mat).sq 2 = (4 : ℝ) • 1 := by
    ext i j
    simp [Mat.sq, Matrix.one_apply, Fin.ext_iff]
  rw [this]
  exact smul_one_posDef (by norm_num)

theorem units_regular : Regular (fun _ _ => True) units := by
  have h1 : Solid (fun _ _ => True) (units.take 2) := C46_extend flat_solid (o := .scale 0 2) trivial (fun _ _ h => by cases h) (fun m e he _ => by
    simp only [Op.written, List.mem_singleton] at he
    subst he
    exact fun x _ => trivial) fun _ _ _ h => by cases h
  have h2 : Solid (fun _ _ => True) (units.take 3) := C46_extend h1 (o := .addFn 1 (.const 32)) trivial (fun _ _ h => by cases h) (fun m e he _ => by
    simp only [Op.written, List.mem_singleton] at he
    subst he
    exact ⟨fun x _ => trivial, trivial⟩) fun _ _ _ h => by cases h
  have h3 : Solid (fun _ _ => True) (units.take 4) := C46_condition (m := 0) (p := 0) h2 (attached_iff.2 rfl) (by simp [Rows]) rfl rfl rfl (eye_posDef 2 2)
  have h4 : Solid (fun _ _ => True) (units.take 5) := C46_condition (m := 0) (p := 2) h3 (attached_iff.2 rfl) (by simp [Rows]) rfl rfl rfl four_posDef
  have h5 : Solid (fun _ _ => True) (units.take 6) := C46_extend h4 (o := .call 0 0) trivial (fun _ _ h => by cases h) (fun m e he _ => by
    simp only [Op.written, List.mem_singleton] at he
    subst he
    exact fun x _ => trivial) fun _ _ _ h => by cases h
  exact (C46_extend h5 (o := .call 0 2) trivial (fun _ _ h => by cases h) (fun m e he _ => by
    simp only [Op.written, List.mem_singleton] at he
    subst he
    exact fun x _ => trivial) fun _ _ _ h => by cases h).regular

theorem units_tells : Tells (Dead (fun _ _ => True)) (fun _ => 2) units := by
  have hd : Dead (fun _ _ => True) = fun _ => False := by
    funext p
    simp [Dead, Live]
  rw [hd]
  refine splits (ops := units) (P := fun before o => ∀ m, ∀ e ∈ o.written (runOps before {}).gps.length m,
      Sorted (fun _ => False) e ∧ Counts (fun _ => 2) e) ⟨?_, ?_, ?_, ?_, ?_, ?_, ?_, trivial⟩
  all_goals
    intro m e he
    first
      | exact (List.not_mem_nil he).elim
      | have he := List.mem_singleton.1 he
        subst he
        first
          | exact ⟨⟨fun _ => ⟨trivial, trivial⟩, fun h => h.elim⟩, trivial⟩
          | exact ⟨⟨fun _ h => h, fun h => h.elim⟩, rfl⟩
          | exact ⟨⟨fun _ h => h, fun h => h.elim⟩, trivial⟩
          | exact ⟨⟨fun _ => ⟨fun h => h, trivial⟩, fun h => h.elim⟩, trivial⟩

theorem units_restates : RestatesAll units 0 (2 * Real.log 2) [available celsius] [available fahrenheit] := by
  have r1 : Runs units (units.take 1) (.scale 0 2) 1 := ⟨⟨units.drop 2, rfl⟩, rfl, 0, attached_iff.2 rfl⟩
  have r2 : Runs units (units.take 2) (.addFn 1 (.const 32)) 2 := ⟨⟨units.drop 3, rfl⟩, rfl, 0, attached_iff.2 rfl⟩
  have h1 := Restates.scale (m := 0) r1 (attached_iff.2 rfl) (by norm_num) [[0], [1]] (available celsius).1.noise (available celsius).2 rfl
  have h2 := Restates.addFn (m := 0) r2 (attached_iff.2 rfl) (f := .const 32) trivial [[0], [1]]
    ⟨(available celsius).1.noise.r, (available celsius).1.noise.c, fun i j => 2 * 2 * (available celsius).1.noise.e i j⟩ rfl ((available celsius).2.map (2 * ·)) rfl
  have h := (h1.trans h2)
  have e1 : available fahrenheit = (⟨2, .num [[0], [1]], ⟨(available celsius).1.noise.r, (available celsius).1.noise.c,
      fun i j => 2 * 2 * (available celsius).1.noise.e i j⟩⟩, List.zipWith (fun x t => t + (Fn.const 32).at x) [[0], [1]] ((available celsius).2.map (2 * ·))) := by
    have e2 : (available fahrenheit).1.noise = ⟨(available celsius).1.noise.r, (available celsius).1.noise.c, fun i j => 2 * 2 * (available celsius).1.noise.e i j⟩ := by
      show Mat.mk 2 2 _ = Mat.mk 2 2 _
      congr 1
      funext i j
      show (if i < 2 ∧ j < 2 then (if [0, 1].getD i 0 = [0, 1].getD j 0 then (4 : ℝ) else 0) else 0) =
        2 * 2 * (if i < 2 ∧ j < 2 then (if [0, 1].getD i 0 = [0, 1].getD j 0 then (1 : ℝ) else 0) else 0)
      split_ifs <;> norm_num
    have e3 : ([34, 36] : List ℝ) = [2 * 1 + 32, 2 * 2 + 32] := by norm_num
    rw [← e2]
    exact Prod.ext rfl e3
  rw [e1]
  have hJ : ([[0], [1]] : List Pt).length * Real.log |(2 : ℝ)| + 0 + 0 = 2 * Real.log 2 := by norm_num
  exact hJ ▸ RestatesAll.cons h .nil

theorem units_fits : FitsV (fun _ _ => True) celsius ∧ FitsV (fun _ _ => True) fahrenheit :=
  ⟨⟨_, rfl, by simp [Rows], rfl, rfl, rfl⟩, ⟨_, rfl, by simp [Rows], rfl, rfl, rfl⟩⟩

/-- C59 for `units`: the posteriors given the observations in one unit and in the other have the same means and kernels. -/
example (xs ys : List Pt) :
    (∀ v, MeanCall (runOps units {}) 1 2 (.num xs) v ↔ MeanCall (runOps units {}) 2 2 (.num xs) v) ∧
    ∃ A A', KernelCall (runOps units {}) 1 0 2 (.num xs) (.num ys) A ∧ KernelCall (runOps units {}) 2 0 2 (.num xs) (.num ys) A' ∧ A.Eqv A' := by
  have c1 : Conditioned units (units.take 3) 0 [celsius] 1 := .direct (n := 3) (ord := []) (.plain celsius.1 celsius.2) (.inl rfl) rfl
    ⟨units.drop 4, rfl⟩ (by decide : 0 < 1) rfl (fun e he => by cases List.mem_singleton.1 he; exact attached_iff.2 rfl)
  have c2 : Conditioned units (units.take 4) 0 [fahrenheit] 2 := .direct (n := 3) (ord := []) (.plain fahrenheit.1 fahrenheit.2) (.inl rfl) rfl
    ⟨units.drop 5, rfl⟩ (by decide : 0 < 2) rfl (fun e he => by cases List.mem_singleton.1 he; exact attached_iff.2 rfl)
  have k := fun q (hq : q = 0 ∨ q = 2) q' (hq' : q' = 0 ∨ q' = 2) => C59_regular (q := q) (q' := q') (xs := xs) (ys := ys) units_regular units_tells c1 c2
    (by simpa using units_fits.1) (by simpa using units_fits.2) (.refl _) units_restates (.refl _)
    (by rcases hq with rfl | rfl <;> exact attached_iff.2 rfl) (by rcases hq with rfl | rfl <;> exact attached_iff.2 rfl)
    (by rcases hq' with rfl | rfl <;> exact attached_iff.2 rfl) (by rcases hq' with rfl | rfl <;> exact attached_iff.2 rfl) (by simp [Rows]) (by simp [Rows])
  exact ⟨(k 2 (.inr rfl) 2 (.inr rfl)).1, (k 0 (.inl rfl) 2 (.inr rfl)).2⟩

/-- The log-densities differ by twice the logarithm of 2. Both exist. -/
example : ∃ r r', Logpdf units (units.take 5) 0 [celsius] r ∧ Logpdf units (units.take 6) 0 [fahrenheit] r' ∧ r' = r - 2 * Real.log 2 := by
  obtain ⟨r, h1⟩ := logpdf_plain (b := units.take 5) (ord := []) (m := 0) units_regular units_fits.1 (eye_posDef 2 2) rfl ⟨units.drop 6, rfl⟩
  obtain ⟨r', h2⟩ := logpdf_plain (b := units.take 6) (ord := []) (m := 0) units_regular units_fits.2 four_posDef rfl ⟨[], rfl⟩
  exact ⟨r, r', h1, h2, C59_logpdf units_regular units_tells h1 h2 (by simpa using units_fits.1) (by simpa using units_fits.2)
    (fun e he => by cases List.mem_singleton.1 he; exact attached_iff.2 rfl) (.refl _) units_restates (.refl _)⟩

end Stheno
