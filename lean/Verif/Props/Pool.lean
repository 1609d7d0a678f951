import Verif.Pool
import Verif.Props.Cache
import Verif.Props.Notation

/-!
# Repeated observations are pooled: C58
-/

namespace Stheno

open Matrix

set_option linter.unusedSectionVars false

/-- The noise `N` and the data `y` pool the noise and the data of `ls`, for `n` random variables: the precisions (the inverses of the
covariance matrices of the noise) add up to the precision of `N`, and so do the data weighted by the precisions. -/
structure Pooled (n : ℕ) (ls : List (Mat × List ℝ)) (N : Mat) (y : List ℝ) : Prop where
  precision : (N.sq n)⁻¹ = (ls.map fun L => (L.1.sq n)⁻¹).sum
  weighted : (N.sq n)⁻¹ *ᵥ (fun i => y.getD i 0) = (ls.map fun L => (L.1.sq n)⁻¹ *ᵥ fun i => L.2.getD i 0).sum

theorem sum_inv_posDef {n : ℕ} {L : Mat × List ℝ} {ls : List (Mat × List ℝ)} (h : ∀ L' ∈ L :: ls, (L'.1.sq n).PosDef) :
    ((L :: ls).map fun L : Mat × List ℝ => (L.1.sq n)⁻¹).sum.PosDef := by
  induction ls generalizing L with
  | nil => simpa using (h L (by simp)).inv
  | cons L' ls ih =>
    rw [List.map_cons, List.sum_cons]
    exact (h L (by simp)).inv.add (ih fun M hM => h M (List.mem_cons_of_mem _ hM))

theorem Pooled.posDef {n : ℕ} {ls : List (Mat × List ℝ)} {N : Mat} {y : List ℝ} (h : Pooled n ls N y) (hne : ls ≠ [])
    (hp : ∀ L ∈ ls, (L.1.sq n).PosDef) : (N.sq n).PosDef := by
  cases ls with
  | nil => exact (hne rfl).elim
  | cons L ls =>
    have h1 := sum_inv_posDef hp
    rw [← h.precision] at h1
    have h2 := h1.inv
    by_cases hd : IsUnit (N.sq n).det
    · rwa [nonsing_inv_nonsing_inv _ hd] at h2
    · rw [nonsing_inv_apply_not_isUnit _ hd] at h1
      have h0 := h1.det_pos
      cases n with
      | zero => exact (hd (by simp)).elim
      | succ n => rw [det_zero] at h0; exact (lt_irrefl _ h0).elim

section
variable {V : Type} [AddCommGroup V] [Module ℝ V] {S Sj Sp : SO V} {zs ws : List V} {N : Mat} {Rs : List Mat} {y r : List ℝ}

theorem Reorder.posDef {zs' : List V} {noise noise' : Mat} {y' : List ℝ} (hr : Reorder zs noise y zs' noise' y')
    (hp : (noisyGram S zs noise).PosDef) : (noisyGram S zs' noise').PosDef := by
  obtain ⟨e, h1, h2, _⟩ := hr
  have hg : (noisyGram S zs' noise').submatrix e e = noisyGram S zs noise := by
    ext i j
    show S.C (zs'.get (e i)) (zs'.get (e j)) + noise'.e (e i) (e j) = S.C (zs.get i) (zs.get j) + noise.e i j
    rw [h1, h1, h2]
  have : noisyGram S zs' noise' = (noisyGram S zs noise).submatrix e.symm e.symm := by
    rw [← hg, submatrix_submatrix]; simp
  rw [this]
  exact hp.submatrix e.symm.injective

/-- Any number of observations of the same. -/
theorem IsUpdate.pool_many {ls : List (Mat × List ℝ)} (hne : ls ≠ [])
    (hl : ∀ L ∈ ls, L.1.r = zs.length ∧ L.1.c = zs.length ∧ L.2.length = zs.length ∧ (L.1.sq zs.length).PosDef)
    (hr : N.r = zs.length) (hc : N.c = zs.length) (hy : y.length = zs.length) (hw : r.length = ws.length)
    (hN : Pooled zs.length ls N y)
    (rr : (Mat.blockDiag Rs).r = ws.length) (rc : (Mat.blockDiag Rs).c = ws.length)
    (hj : IsUpdate S Sj ((ls.flatMap fun _ => zs) ++ ws) (Mat.blockDiag (ls.map (·.1) ++ Rs)) (ls.flatMap (·.2) ++ r))
    (pj : (noisyGram S ((ls.flatMap fun _ => zs) ++ ws) (Mat.blockDiag (ls.map (·.1) ++ Rs))).PosDef)
    (hp : IsUpdate S Sp (zs ++ ws) (Mat.blockDiag (N :: Rs)) (y ++ r)) :
    (∀ u v, Sj.C u v = Sp.C u v) ∧ ∀ u, Sj.E u = Sp.E u := by
  have p0 := hN.posDef hne fun L hL => (hl L hL).2.2.2
  obtain ⟨L, ls, rfl⟩ : ∃ L ls', ls = L :: ls' := by
    cases ls with
    | nil => exact (hne rfl).elim
    | cons L ls => exact ⟨L, ls, rfl⟩
  clear hne
  induction ls generalizing L Sj with
  | nil =>
    obtain ⟨r1, c1, l1, p1⟩ := hl L (by simp)
    have e1 : N.sq zs.length = L.1.sq zs.length := by
      have := hN.precision
      simp only [List.map_cons, List.map_nil, List.sum_cons, List.sum_nil, add_zero] at this
      rw [← nonsing_inv_nonsing_inv _ (PosDef.det_unit p0), this, nonsing_inv_nonsing_inv _ (PosDef.det_unit p1)]
    have e2 : ∀ i : Fin zs.length, y.getD i 0 = L.2.getD i 0 := by
      have := hN.weighted
      simp only [List.map_cons, List.map_nil, List.sum_cons, List.sum_nil, add_zero] at this
      rw [e1] at this
      have := congrArg ((L.1.sq zs.length) *ᵥ ·) this
      simp only [mulVec_mulVec, mul_nonsing_inv _ (PosDef.det_unit p1), one_mulVec] at this
      exact congrFun this
    simp only [List.flatMap_cons, List.flatMap_nil, List.append_nil, List.map_cons, List.map_nil, List.cons_append, List.nil_append] at hj pj
    rw [show (([L].flatMap fun _ => zs) ++ ws) = zs ++ ws by simp] at pj
    have hR : Reorder (zs ++ ws) (Mat.blockDiag (L.1 :: Rs)) (L.2 ++ r) (zs ++ ws) (Mat.blockDiag (N :: Rs)) (y ++ r) := by
      refine ⟨Equiv.refl _, fun _ => rfl, fun a b => ?_, fun a => ?_⟩
      · obtain ⟨a, rfl⟩ := (appEquiv zs ws).surjective a
        obtain ⟨b, rfl⟩ := (appEquiv zs ws).surjective b
        simp only [Mat.blockDiag, Equiv.refl_apply]
        rcases a with a | a <;> rcases b with b | b
        · rw [dsum_ll hr hc, dsum_ll r1 c1]
          exact congrFun (congrFun e1 a) b
        · rw [dsum_lr hr hc, dsum_lr r1 c1]
        · rw [dsum_rl hr hc, dsum_rl r1 c1]
        · rw [dsum_rr hr hc, dsum_rr r1 c1]
      · obtain ⟨a, rfl⟩ := (appEquiv zs ws).surjective a
        rcases a with a | a
        · rw [Equiv.refl_apply, getD_inl _ _ hy, getD_inl _ _ l1, e2]
        · rw [Equiv.refl_apply, getD_inr _ _ hy, getD_inr _ _ l1]
    obtain ⟨h1, h2⟩ := hj.reorder hp hR pj
    exact ⟨h1, h2 (by simp [l1, hw]) (by simp [hy, hw])⟩
  | cons L2 ls ih =>
    obtain ⟨r1, c1, l1, p1⟩ := hl L (by simp)
    obtain ⟨r2, c2, l2, p2⟩ := hl L2 (by simp)
    have psum := p1.inv.add p2.inv
    set M : Matrix (Fin zs.length) (Fin zs.length) ℝ := ((L.1.sq zs.length)⁻¹ + (L2.1.sq zs.length)⁻¹)⁻¹ with hM
    have eM : M⁻¹ = (L.1.sq zs.length)⁻¹ + (L2.1.sq zs.length)⁻¹ := nonsing_inv_nonsing_inv _ (PosDef.det_unit psum)
    have pM : M.PosDef := psum.inv
    set L' : Mat × List ℝ := (Mat.ofSq M, List.ofFn (M *ᵥ (((L.1.sq zs.length)⁻¹ *ᵥ fun i => L.2.getD i 0) +
      ((L2.1.sq zs.length)⁻¹ *ᵥ fun i => L2.2.getD i 0)))) with hL'
    have sM : L'.1.sq zs.length = M := ofSq_sq M
    have lM : L'.2.length = zs.length := by simp [hL']
    have dM : (L'.1.sq zs.length)⁻¹ *ᵥ (fun i => L'.2.getD i 0) = ((L.1.sq zs.length)⁻¹ *ᵥ fun i => L.2.getD i 0) +
        ((L2.1.sq zs.length)⁻¹ *ᵥ fun i => L2.2.getD i 0) := by
      have : (fun i : Fin zs.length => L'.2.getD i 0) = M *ᵥ (((L.1.sq zs.length)⁻¹ *ᵥ fun i => L.2.getD i 0) +
          ((L2.1.sq zs.length)⁻¹ *ᵥ fun i => L2.2.getD i 0)) := by
        funext i
        simp [hL']
      rw [this, sM, mulVec_mulVec, nonsing_inv_mul _ (PosDef.det_unit pM), one_mulVec]
    simp only [List.flatMap_cons, List.append_assoc, List.map_cons, List.cons_append, Mat.blockDiag] at hj pj
    rw [show (((L :: L2 :: ls).flatMap fun _ => zs) ++ ws) = zs ++ (zs ++ ((ls.flatMap fun _ => zs) ++ ws)) by simp] at pj
    have q := noisyGram_pool (N := L'.1) (zs := zs) r1 c1 r2 c2 rfl rfl p1 p2 (by rw [sM]; exact pM) (by rw [sM]; exact eM) pj
    have hi : IsUpdate S (S.observe (zs ++ ((ls.flatMap fun _ => zs) ++ ws)) (L'.1.dsum (Mat.blockDiag (ls.map (·.1) ++ Rs)))
        (L'.2 ++ (ls.flatMap (·.2) ++ r))) (zs ++ ((ls.flatMap fun _ => zs) ++ ws)) (L'.1.dsum (Mat.blockDiag (ls.map (·.1) ++ Rs)))
        (L'.2 ++ (ls.flatMap (·.2) ++ r)) := by
      have h1 := hj.r
      have h2 := hj.c
      simp only [Mat.dsum, List.length_append] at h1 h2
      refine SO.observe_isUpdate ?_ ?_ <;> simp only [Mat.dsum, List.length_append]
      · show zs.length + _ = _
        omega
      · show zs.length + _ = _
        omega
    have lf : ∀ (ls : List (Mat × List ℝ)), (∀ L ∈ ls, L.2.length = zs.length) → (ls.flatMap (·.2)).length = (ls.flatMap fun _ => zs).length := by
      intro ls h
      induction ls with
      | nil => rfl
      | cons L ls ih => simp only [List.flatMap_cons, List.length_append, h L (by simp), ih fun L hL => h L (by simp [hL])]
    obtain ⟨k1, k2⟩ := hj.pool hi r1 c1 r2 c2 rfl rfl p1 p2 (by rw [sM]; exact pM) (by rw [sM]; exact eM) pj q
    have k2 := k2 l1 l2 lM (by rw [List.length_append, List.length_append, hw, lf ls fun L hL => (hl L (by simp [hL])).2.2.1]) dM
    obtain ⟨i1, i2⟩ := ih L' (fun M hM => by
        rcases List.mem_cons.1 hM with rfl | hM
        · exact ⟨rfl, rfl, lM, by rw [sM]; exact pM⟩
        · exact hl M (by simp [hM]))
      ⟨by
        rw [hN.precision]
        simp only [List.map_cons, List.sum_cons, sM, eM, add_assoc], by
        rw [hN.weighted]
        simp only [List.map_cons, List.sum_cons]
        rw [dM, add_assoc]⟩ (by
        simp only [List.flatMap_cons, List.append_assoc, List.map_cons, List.cons_append, Mat.blockDiag]
        exact hi) (by
        rw [show (((L' :: ls).flatMap fun _ => zs) ++ ws) = zs ++ ((ls.flatMap fun _ => zs) ++ ws) by simp]
        exact q)
    exact ⟨fun u v => (k1 u v).trans (i1 u v), fun u => (k2 u).trans (i2 u)⟩

end

section
variable {V : Type} [AddCommGroup V] [Module ℝ V] {I : Interp V} {G : Dom} {D : PId → ℕ} {ops b b' : List Op} {m m1 m2 : MId} {p q q' : PId}
  {zs xs ys : List Pt} {N : Mat} {y : List ℝ} {o o' : Obs} {ls : List (Mat × List ℝ)} {k k' rest : List (Fdd × List ℝ)} {l l' : List (Fdd × Vals)}

theorem blocks_unique {k : List (Fdd × List ℝ)} {z z' : List (List V)} (h : I.Blocks m k z) (h' : I.Blocks m k z') : z = z' := by
  induction h generalizing z' with
  | nil => cases h'; rfl
  | cons e _ ih =>
    cases h' with
    | cons e' h' => rw [ih h', Option.some.inj (e.1.symm.trans e'.1)]

/-- Repeated observations of the process `p` at the input `x`. -/
def repeats (p : PId) (x : Input) (ls : List (Mat × List ℝ)) : List (Fdd × List ℝ) := ls.map fun L => (⟨p, x, L.1⟩, L.2)

/-- **C58**, for the values of the processes. -/
theorem C58_reading {x : Input} {vs : List V} {zss : List (List V)} (h : I.Reads ops) (hf : I.Firm ops) (g : Gives ops b m o m1)
    (g' : Gives ops b' m o' m2) (ho : ObsOf ops m k o) (ho' : ObsOf ops m k' o')
    (hk : k.Perm (repeats p x ls ++ rest)) (hk' : k'.Perm ((⟨p, x, N⟩, y) :: rest)) (hb : I.Blocks m ((⟨p, x, N⟩, y) :: rest) (vs :: zss))
    (hx : numElements x ≠ 0) (hne : ls ≠ [])
    (hl : ∀ L ∈ ls, L.1.r = vs.length ∧ L.1.c = vs.length ∧ L.2.length = vs.length ∧ (L.1.sq vs.length).PosDef)
    (hN : Pooled vs.length ls N y) : I.S m1 = I.S m2 := by
  obtain ⟨hv, hz⟩ := List.forall₂_cons.1 hb
  have hbj : I.Blocks m (repeats p x ls ++ rest) (ls.map (fun _ => vs) ++ zss) := by
    refine List.rel_append ?_ hz
    have : ∀ ls : List (Mat × List ℝ), (∀ L ∈ ls, L.1.r = vs.length ∧ L.1.c = vs.length ∧ L.2.length = vs.length ∧ (L.1.sq vs.length).PosDef) →
        I.Blocks m (repeats p x ls) (ls.map fun _ => vs) := by
      intro ls hl
      induction ls with
      | nil => exact .nil
      | cons L ls ih => exact .cons ⟨hv.1, (hl L (by simp)).1, (hl L (by simp)).2.1, (hl L (by simp)).2.2.1⟩ (ih fun L hL => hl L (by simp [hL]))
    exact this ls hl
  -- what is observed, in the order of the program and in the order of the statement
  obtain ⟨zk, bk, rk⟩ := hbj.reorder hk.symm
  obtain ⟨zk', bk', rk'⟩ := hb.reorder hk'.symm
  have n1 : ∃ e ∈ k, numElements e.1.x ≠ 0 := by
    cases ls with
    | nil => exact (hne rfl).elim
    | cons L ls => exact ⟨(⟨p, x, L.1⟩, L.2), hk.mem_iff.2 (by simp [repeats]), hx⟩
  have n2 : ∃ e ∈ k', numElements e.1.x ≠ 0 := ⟨(⟨p, x, N⟩, y), hk'.mem_iff.2 (by simp), hx⟩
  obtain ⟨u, pu⟩ := g.blocks h hf ho bk n1
  obtain ⟨u', pu'⟩ := g'.blocks h hf ho' bk' n2
  obtain ⟨zj, bj, rj⟩ := bk.reorder hk
  obtain ⟨zp, bp, rp⟩ := bk'.reorder hk'
  have ej : zj = ls.map (fun _ => vs) ++ zss := blocks_unique bj hbj
  have ep : zp = vs :: zss := blocks_unique bp hb
  subst ej ep
  have sj := hbj.sizes
  have sp := hb.sizes
  have sz := Interp.Blocks.sizes hz
  have uj := SO.observe_isUpdate (S := I.S m) (y := (repeats p x ls ++ rest).flatMap (·.2)) sj.1 sj.2.1
  have up := SO.observe_isUpdate (S := I.S m) (y := (((⟨p, x, N⟩, y) :: rest : List (Fdd × List ℝ))).flatMap (·.2)) sp.1 sp.2.1
  have pj := rj.posDef (S := I.S m) pu
  obtain ⟨c1, e1⟩ := u.reorder uj rj pu
  obtain ⟨c2, e2⟩ := u'.reorder up rp pu'
  have e1 := e1 bk.sizes.2.2 sj.2.2
  have e2 := e2 bk'.sizes.2.2 sp.2.2
  have f1 : (ls.map (fun _ => vs) ++ zss).flatten = (ls.flatMap fun _ => vs) ++ zss.flatten := by
    rw [List.flatten_append, List.flatMap_def]
  have f2 : (repeats p x ls ++ rest).map (·.1.noise) = ls.map (·.1) ++ rest.map (·.1.noise) := by
    rw [List.map_append, repeats, List.map_map]; rfl
  have f3 : (repeats p x ls ++ rest).flatMap (·.2) = ls.flatMap (·.2) ++ rest.flatMap (·.2) := by
    rw [List.flatMap_append, repeats, List.flatMap_map]
  generalize (I.S m).observe _ _ ((repeats p x ls ++ rest).flatMap (·.2)) = Sj at uj c1 e1
  generalize (I.S m).observe _ _ _ = Sp at up c2 e2
  rw [f1, f2] at pj
  rw [f1, f2, f3] at uj
  obtain ⟨c3, e3⟩ := uj.pool_many hne hl hv.2.1 hv.2.2.1 hv.2.2.2 sz.2.2 hN sz.1 sz.2.1 pj up
  exact SO.ext' (fun a b => by rw [c1, c2, c3]) fun a => by rw [e1, e2, e3]

/-- **C58.** In regular programs: measures conditioned on any number of observations of the same process at the same rows and on any other
observations, and on one observation with the pooled noise and the pooled data and the same other observations, in all notations, with
missing data and in any order, have means and kernels that return the same. -/
theorem C58_regular (h : Regular G ops) (ht : Tells (Dead G) D ops) (c1 : Conditioned ops b m l m1) (c2 : Conditioned ops b' m l' m2)
    (hl : ∀ e ∈ l, FitsV G e) (hl' : ∀ e ∈ l', FitsV G e) (hp : (l.map available).Perm (repeats p (.num zs) ls ++ rest))
    (hp' : (l'.map available).Perm ((⟨p, .num zs, N⟩, y) :: rest)) (hz : zs ≠ []) (hne : ls ≠ [])
    (hpd : ∀ L ∈ ls, (L.1.sq zs.length).PosDef) (hN : Pooled zs.length ls N y)
    (hq : Attached (runOps b {}) m q) (kq : Attached (runOps b' {}) m q)
    (hq' : Attached (runOps b {}) m q') (kq' : Attached (runOps b' {}) m q') (cq : Rows (G q) xs)
    (cq' : Rows (G q') ys) :
    (∀ v, MeanCall (runOps ops {}) m1 q (.num xs) v ↔ MeanCall (runOps ops {}) m2 q (.num xs) v) ∧
    ∃ A A', KernelCall (runOps ops {}) m1 q q' (.num xs) (.num ys) A ∧ KernelCall (runOps ops {}) m2 q q' (.num xs) (.num ys) A' ∧
      A.Eqv A' := by
  obtain ⟨b1, o1, p1, g1, ho1, ha1⟩ := c1.gives ht hl
  obtain ⟨b2, o2, p2, g2, ho2, ha2⟩ := c2.gives ht hl'
  have fits : ∀ {l : List (Fdd × Vals)}, (∀ e ∈ l, FitsV G e) → ∀ e ∈ l.map available, Fits G e := by
    intro l hl e he
    obtain ⟨e', he', rfl⟩ := List.mem_map.1 he
    exact (hl e' he').fits
  have att : ∀ {b : List Op} {l : List (Fdd × Vals)}, (∀ e ∈ l, Attached (runOps b {}) m e.1.p) → ∀ e ∈ l.map available, Attached (runOps b {}) m e.1.p := by
    intro b l ha e he
    obtain ⟨e', he', rfl⟩ := List.mem_map.1 he
    exact ha e' he'
  obtain ⟨zss, hb⟩ := h.blocks (m := m) (l := (⟨p, .num zs, N⟩, y) :: rest) (fun e he => fits hl' e (hp'.mem_iff.2 he))
    fun e he => g2.attached_prior (att ha2 e (hp'.mem_iff.2 he))
  cases hb with
  | @cons _ vs _ zss hv hb =>
  have lv : vs.length = zs.length := by
    obtain ⟨xs', hx', _, hr, _⟩ := fits hl' _ (hp'.mem_iff.2 List.mem_cons_self)
    cases hx'
    rw [← hv.2.1, hr]
  refine h.same (b := b) (b' := b') (m := m) (C58_reading h.reads h.firm g1 g2 ho1 ho2 hp hp' (.cons hv hb) (by simpa [numElements] using hz) hne
      (fun L hL => ?_) (lv ▸ hN)) (fun q hq kq => ?_) hq kq hq' kq' cq cq'
  · have hm : ((⟨p, .num zs, L.1⟩, L.2) : Fdd × List ℝ) ∈ repeats p (.num zs) ls ++ rest :=
      List.mem_append_left _ (List.mem_map.2 ⟨L, hL, rfl⟩)
    obtain ⟨xs', hx', _, h1, h2, h3⟩ := fits hl _ (hp.mem_iff.2 hm)
    cases hx'
    exact ⟨h1.trans lv.symm, h2.trans lv.symm, h3.trans lv.symm, lv ▸ hpd L hL⟩
  · exact ⟨g1.attached (attached_pre hq p1), g2.attached (attached_pre kq p2), by
      rw [(g1.law h.reads).1 q (attached_pre hq p1), (g2.law h.reads).1 q (attached_pre kq p2)]⟩

end

/-- **C58.** Observations with the same noise are pooled by dividing the noise by their number and averaging the data. -/
theorem C58_average {n : ℕ} {M : Mat} {yss : List (List ℝ)} (hM : (M.sq n).PosDef) (hne : yss ≠ []) :
    Pooled n (yss.map fun y => (M, y)) ⟨M.r, M.c, fun i j => M.e i j / yss.length⟩
      (List.ofFn fun i : Fin n => (yss.map fun y => y.getD i 0).sum / yss.length) := by
  have hk : (yss.length : ℝ) ≠ 0 := by simpa using hne
  have e1 : (⟨M.r, M.c, fun i j => M.e i j / yss.length⟩ : Mat).sq n = (yss.length : ℝ)⁻¹ • M.sq n := by
    ext i j
    simp [Mat.sq, div_eq_inv_mul]
  have e2 : ((yss.length : ℝ)⁻¹ • M.sq n)⁻¹ = (yss.length : ℝ) • (M.sq n)⁻¹ := by
    refine inv_eq_right_inv ?_
    rw [smul_mul_smul_comm, mul_nonsing_inv _ (PosDef.det_unit hM), inv_mul_cancel₀ hk, one_smul]
  constructor
  · rw [e1, e2, List.map_map]
    show _ = (yss.map fun _ => (M.sq n)⁻¹).sum
    rw [List.map_const', List.sum_replicate, Nat.cast_smul_eq_nsmul]
  · rw [e1, e2, List.map_map, smul_mulVec, ← mulVec_smul]
    have : ∀ yss : List (List ℝ), (yss.map fun y => (M.sq n)⁻¹ *ᵥ fun i : Fin n => y.getD i 0).sum =
        (M.sq n)⁻¹ *ᵥ fun i : Fin n => (yss.map fun y => y.getD i 0).sum := by
      intro yss
      induction yss with
      | nil => exact (mulVec_zero _).symm
      | cons y yss ih =>
        simp only [List.map_cons, List.sum_cons, ih]
        rw [← mulVec_add]
        rfl
    refine Eq.trans ?_ (this yss).symm
    congr 1
    funext i
    simp only [Pi.smul_apply, smul_eq_mul, List.getD_eq_getElem?_getD, List.getElem?_ofFn, i.2, ↓reduceDIte, Option.getD_some]
    exact mul_div_cancel₀ _ hk

/-- An observation of a GP at one row, with noise of variance `c`. -/
noncomputable def oneAt (c y : ℝ) : Fdd × Vals := (⟨0, .num [[0]], ⟨1, 1, fun _ _ => c⟩⟩, [some y])

/-- A GP that is observed to be 1 and to be 3 at the same row with noise of variance 1, and to be 2 with noise of variance 1/2. -/
noncomputable def reread : List Op :=
  [.gp .zero affine none none,
   .cross [0, 0] [0],
   .condition 0 (.exact 1 (.tup [.fdd 0 (.num [[0]]), .fdd 0 (.num [[0]])]) (Mat.blockDiag [⟨1, 1, fun _ _ => 1⟩, ⟨1, 1, fun _ _ => 1⟩]) [1, 3]),
   .condition 0 (.exact 0 (.num [[0]]) ⟨1, 1, fun _ _ => 1 / 2⟩ [2])]

theorem reread_both : Conditioned reread (reread.take 1) 0 [oneAt 1 1, oneAt 1 3] 1 :=
  .direct (n := 3) (ord := [0]) (.pairs [oneAt 1 1, oneAt 1 3]) (.inl rfl) rfl ⟨reread.drop 3, rfl⟩ (by decide : 0 < 1) rfl
    (fun e he => by
      simp only [List.mem_cons, List.not_mem_nil, or_false] at he
      rcases he with rfl | rfl
      · exact attached_iff.2 rfl
      · exact attached_iff.2 rfl)

theorem reread_pooled : Conditioned reread (reread.take 3) 0 [oneAt (1 / 2) 2] 2 :=
  .direct (n := 3) (ord := [0]) (.plain (oneAt (1 / 2) 2).1 (oneAt (1 / 2) 2).2) (.inl rfl) rfl ⟨[], rfl⟩ (by decide : 0 < 2) rfl
    (fun e he => by cases List.mem_singleton.1 he; exact attached_iff.2 rfl)

theorem reread_noisy : Noisy reread := by
  intro m obs h
  simp only [reread, List.mem_cons, List.not_mem_nil, or_false, reduceCtorEq, false_or, Op.condition.injEq] at h
  rcases h with ⟨_, rfl⟩ | ⟨_, rfl⟩
  · have : (Mat.blockDiag [⟨1, 1, fun _ _ => 1⟩, ⟨1, 1, fun _ _ => 1⟩]).sq 2 = 1 := by
      ext i j
      fin_cases i <;> fin_cases j <;> simp [Mat.sq, Mat.blockDiag, Mat.dsum]
    show ((Mat.blockDiag [⟨1, 1, fun _ _ => 1⟩, ⟨1, 1, fun _ _ => 1⟩]).sq 2).PosDef
    rw [this]
    exact .one
  · have : (⟨1, 1, fun _ _ => 1 / 2⟩ : Mat).sq 1 = (1 / 2 : ℝ) • 1 := by
      ext i j
      simp [Mat.sq, Subsingleton.elim i j]
    show ((⟨1, 1, fun _ _ => 1 / 2⟩ : Mat).sq 1).PosDef
    rw [this]
    exact PosDef.one.smul (by norm_num)

theorem reread_regular : Regular (off (· = 1)) reread := by
  refine .of_noisy_off ⟨?_, ?_, ?_, fun m obs h => (reread_noisy m obs h).psd, smooth_of (by simp [reread])⟩ reread_noisy
    (.of_exact (by simp [reread]))
  · have hs := affine_psd
    intro o ho
    simp only [reread, List.mem_cons, List.not_mem_nil, or_false] at ho
    rcases ho with rfl | rfl | rfl | rfl
    all_goals first
      | exact ⟨trivial, trivial, hs⟩
      | trivial
      | (intro h; cases h)
  · refine splits (ops := reread) (P := fun before o => ∀ m, ∀ e ∈ o.written (runOps before {}).gps.length m,
      ¬ e.1 = 1 → e.2.TotalOff (· = 1)) ⟨?_, ?_, ?_, ?_, trivial⟩
    all_goals
      intro m e he
      first
        | exact (List.not_mem_nil he).elim
        | have he := List.mem_singleton.1 he
          subst he
          first
            | exact fun h => (h rfl).elim
            | exact fun _ => ⟨trivial, trivial⟩
  · intro before m obs after e hm
    refine splits (ops := reread) (P := fun before o => ∀ m obs, o = .condition m obs → ObsFitsOff (· = 1) before m obs) ⟨?_, ?_, ?_, ?_, trivial⟩
      before _ after e m obs rfl
    all_goals
      intro m obs e
      first
        | (exfalso; cases e; done)
        | cases e
    · refine ⟨rfl, rfl, rfl, .inr ⟨reread.take 1, [0, 0], [0], [], rfl, rfl, attached_iff.2 rfl, ?_, by decide, ?_⟩⟩
      · refine ⟨_, by simp, rfl, fun a ha => ?_⟩
        simp only [List.mem_cons, List.not_mem_nil, or_false, or_self] at ha
        rcases ha with rfl
        exact ⟨0, by simp, _, rfl⟩
      · intro i hi hne
        have : i ∈ [0, 1] := hi
        have hne : ¬ i = 1 := hne
        show i ∈ [0]
        simp only [List.mem_cons, List.not_mem_nil, or_false] at this ⊢
        omega
    · exact ⟨rfl, rfl, rfl, .inl ⟨⟨_, rfl⟩, attached_iff.2 rfl, by decide⟩⟩

theorem reread_tells : Tells (Dead (off (· = 1))) (fun _ => 2) reread := by
  rw [dead_off]
  refine splits (ops := reread) (P := fun before o => ∀ m, ∀ e ∈ o.written (runOps before {}).gps.length m,
      Sorted (· = 1) e ∧ Counts (fun _ => 2) e) ⟨?_, ?_, ?_, ?_, trivial⟩
  all_goals
    intro m e he
    first
      | exact (List.not_mem_nil he).elim
      | have he := List.mem_singleton.1 he
        subst he
        first
          | exact ⟨⟨fun _ => ⟨trivial, trivial⟩, fun h => by cases h⟩, trivial⟩
          | exact ⟨⟨fun h => (h rfl).elim, fun _ => ⟨by simp, by decide⟩⟩, rfl⟩

theorem oneAt_fits (c y : ℝ) : FitsV (off (· = 1)) (oneAt c y) := ⟨_, rfl, rows_off (by show ¬ (0 : ℕ) = 1; decide), rfl, rfl, rfl⟩

/-- C58 for `reread`: both posteriors have the same means and kernels. -/
example (xs ys : List Pt) :
    (∀ v, MeanCall (runOps reread {}) 1 0 (.num xs) v ↔ MeanCall (runOps reread {}) 2 0 (.num xs) v) ∧
    ∃ A A', KernelCall (runOps reread {}) 1 0 0 (.num xs) (.num ys) A ∧ KernelCall (runOps reread {}) 2 0 0 (.num xs) (.num ys) A' ∧
      A.Eqv A' := by
  have hM : ((available (oneAt 1 1)).1.noise.sq 1).PosDef := by
    have : (available (oneAt 1 1)).1.noise.sq 1 = 1 := by
      ext i j
      fin_cases i; fin_cases j
      rfl
    rw [this]; exact .one
  refine C58_regular (ls := [[1], [3]].map fun y => ((available (oneAt 1 1)).1.noise, y)) (rest := []) (zs := [[0]]) (p := 0)
    reread_regular reread_tells reread_both reread_pooled (fun e he => ?_) (fun e he => ?_) ?_ ?_ (by simp) (by simp) ?_
    (C58_average hM (by simp)) (attached_iff.2 rfl) (attached_iff.2 rfl) (attached_iff.2 rfl) (attached_iff.2 rfl) (rows_off (by decide)) (rows_off (by decide))
  · simp only [List.mem_cons, List.not_mem_nil, or_false] at he
    rcases he with rfl | rfl <;> exact oneAt_fits _ _
  · cases List.mem_singleton.1 he; exact oneAt_fits _ _
  · exact .refl _
  · have e1 : (available (oneAt (1 / 2) 2)) = (⟨0, .num [[0]], ⟨1, 1, fun i j => (available (oneAt 1 1)).1.noise.e i j / ([[1], [3]] : List (List ℝ)).length⟩⟩, 
        List.ofFn fun i : Fin 1 => (([[1], [3]] : List (List ℝ)).map fun y => y.getD i 0).sum / ([[1], [3]] : List (List ℝ)).length) := by
      have e2 : (available (oneAt (1 / 2) 2)).1.noise = ⟨1, 1, fun i j => (available (oneAt 1 1)).1.noise.e i j / ([[1], [3]] : List (List ℝ)).length⟩ := by
        show Mat.mk 1 1 _ = Mat.mk 1 1 _
        congr 1
        funext i j
        show (if i < 1 ∧ j < 1 then (1 / 2 : ℝ) else 0) = (if i < 1 ∧ j < 1 then (1 : ℝ) else 0) / ((2 : ℕ) : ℝ)
        split <;> norm_num
      have e3 : ([2] : List ℝ) = List.ofFn fun i : Fin 1 => (([[1], [3]] : List (List ℝ)).map fun y => y.getD i 0).sum / ([[1], [3]] : List (List ℝ)).length := by
        norm_num
      rw [← e3, ← e2]
      rfl
    rw [List.map_cons, List.map_nil, e1]
    exact .refl _
  · intro L hL
    simp only [List.map_cons, List.map_nil, List.mem_cons, List.not_mem_nil, or_false] at hL
    rcases hL with rfl | rfl <;> exact hM

end Stheno
