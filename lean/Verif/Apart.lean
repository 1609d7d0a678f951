import Verif.Chain
import Verif.Derive

/-!
# Parts of a model that are independent

If the processes of a program are in parts, and a process is made only from processes of its own part, then processes of different parts are uncorrelated. Observations
of one part or of the other do not change that, and observations of a part do not change anything in the others.
-/

namespace Stheno

open Matrix

set_option linter.unusedSectionVars false

section
variable {V : Type} [AddCommGroup V] [Module ℝ V] {S S' S1 Sj : SO V} {zs zs1 zs2 : List V} {N N1 N2 : Mat} {y y1 y2 : List ℝ}

/-- If what is observed is in two groups that are uncorrelated, also with the noise, then a random variable that is uncorrelated with one group and one that is uncorrelated
with the other stay uncorrelated. -/
theorem IsUpdate.apart (h : IsUpdate S S' zs N y) (hp : (noisyGram S zs N).PosDef) (P : Fin zs.length → Prop)
    (hg : ∀ i j, P i → ¬ P j → noisyGram S zs N i j = 0) {u v : V} (hu : ∀ i, ¬ P i → S.C (zs.get i) u = 0) (hv : ∀ i, P i → S.C (zs.get i) v = 0)
    (huv : S.C u v = 0) : S'.C u v = 0 := by
  classical
  set G := noisyGram S zs N with hG
  set D : Matrix (Fin zs.length) (Fin zs.length) ℝ := diagonal fun i => if P i then 1 else 0 with hD
  have hs : ∀ i j, G i j = G j i := fun i j => by
    have := hp.1.apply i j
    simpa using this.symm
  have hc : G * D = D * G := by
    ext i j
    rw [hD, mul_diagonal, diagonal_mul]
    by_cases hi : P i <;> by_cases hj : P j <;> simp only [hi, hj, if_true, if_false, mul_one, one_mul, mul_zero, zero_mul]
    · exact (hg i j hi hj).symm
    · rw [hs]; exact hg j i hj hi
  have hU : IsUnit G.det := isUnit_iff_ne_zero.2 hp.det_pos.ne'
  have hi : G⁻¹ * D = D * G⁻¹ := by
    calc G⁻¹ * D = G⁻¹ * (D * (G * G⁻¹)) := by rw [mul_nonsing_inv _ hU, Matrix.mul_one]
      _ = G⁻¹ * (G * D) * G⁻¹ := by rw [hc]; simp only [Matrix.mul_assoc]
      _ = D * G⁻¹ := by rw [← Matrix.mul_assoc, nonsing_inv_mul _ hU, Matrix.one_mul]
  have h1 : D *ᵥ covs S zs u = covs S zs u := by
    funext i
    rw [hD, mulVec_diagonal]
    by_cases hi : P i
    · simp [hi]
    · simp only [hi, if_false, zero_mul]
      exact (hu i hi).symm
  have h2 : D *ᵥ covs S zs v = 0 := by
    funext i
    rw [hD, mulVec_diagonal]
    by_cases hi : P i
    · simp only [hi, if_true, one_mul]
      exact hv i hi
    · simp [hi]
  rw [h.C hp, quadSum_eq, huv, ← hG, ← h1, dotProduct_comm, dotProduct_mulVec, ← mulVec_transpose, hD, diagonal_transpose, ← hD, mulVec_mulVec, ← hi,
    ← mulVec_mulVec, h2, mulVec_zero, zero_dotProduct, sub_zero]

/-- What is observed does not change what is uncorrelated with it. -/
theorem IsUpdate.unrelated (h : IsUpdate S S' zs N y) (hp : (noisyGram S zs N).PosDef) {u : V} (hu : ∀ z ∈ zs, S.C z u = 0) :
    (∀ v, S'.C u v = S.C u v) ∧ (y.length = zs.length → S'.E u = S.E u) := by
  have h0 : covs S zs u = 0 := funext fun i => hu _ (List.get_mem zs i)
  refine ⟨fun v => ?_, fun hy => ?_⟩
  · rw [h.C hp, quadSum_eq, h0, zero_dotProduct, sub_zero]
  · rw [h.E hp hy]
    simp only [hu _ (List.get_mem zs _), zero_mul, Finset.sum_const_zero, add_zero]

theorem noisyGram_left (hr : N1.r = zs1.length) (hc : N1.c = zs1.length) (hp : (noisyGram S (zs1 ++ zs2) (N1.dsum N2)).PosDef) :
    (noisyGram S zs1 N1).PosDef := by
  have h := hp.submatrix (e := appEquiv zs1 zs2 ∘ Sum.inl) ((appEquiv zs1 zs2).injective.comp Sum.inl_injective)
  convert h using 1
  rw [← submatrix_submatrix, noisyGram_blocks hr hc]
  rfl

/-- Observations that are uncorrelated with other observations and with a random variable do not change it. -/
theorem IsUpdate.irrelevant (h1 : IsUpdate S S1 zs1 N1 y1) (hj : IsUpdate S Sj (zs2 ++ zs1) (N2.dsum N1) (y2 ++ y1)) (hr : N2.r = zs2.length) (hc : N2.c = zs2.length)
    (pj : (noisyGram S (zs2 ++ zs1) (N2.dsum N1)).PosDef) (p1 : (noisyGram S zs1 N1).PosDef) (h0 : ∀ z ∈ zs2, ∀ w ∈ zs1, S.C z w = 0) {u : V} (hu : ∀ z ∈ zs2, S.C z u = 0) :
    (∀ v, Sj.C u v = S1.C u v) ∧ (y1.length = zs1.length → y2.length = zs2.length → Sj.E u = S1.E u) := by
  have p2 := noisyGram_left hr hc pj
  have u2 := SO.observe_isUpdate (S := S) (y := y2) hr hc
  generalize S.observe _ _ _ = S2 at u2
  have hz : ∀ w ∈ zs1, (∀ v, S2.C w v = S.C w v) ∧ (y2.length = zs2.length → S2.E w = S.E w) := fun w hw => u2.unrelated p2 fun z hz => h0 z hz w hw
  have hg : noisyGram S2 zs1 N1 = noisyGram S zs1 N1 := by
    ext i j
    show S2.C _ _ + _ = S.C _ _ + _
    rw [(hz _ (List.get_mem zs1 i)).1]
  have u1 := SO.observe_isUpdate (S := S2) (y := y1) h1.r h1.c
  obtain ⟨c, e⟩ := u2.trans u1 hj p2 (hg ▸ p1) pj
  obtain ⟨cu, eu⟩ := u2.unrelated p2 hu
  refine ⟨fun v => ?_, fun l1 l2 => ?_⟩
  · rw [← c, u1.C (hg ▸ p1), h1.C p1, cu, hg]
    simp only [quadSum]
    congr 1
    refine Finset.sum_congr rfl fun a _ => Finset.sum_congr rfl fun b _ => ?_
    rw [(hz _ (List.get_mem zs1 a)).1, (hz _ (List.get_mem zs1 b)).1]
  · rw [← e l2 l1, u1.E (hg ▸ p1) l1, h1.E p1 l1, eu l2, hg]
    congr 1
    refine Finset.sum_congr rfl fun a _ => ?_
    rw [(hz _ (List.get_mem zs1 a)).1]
    congr 3
    funext b
    rw [(hz _ (List.get_mem zs1 b)).2 l2]

/-- Log-densities of uncorrelated observations add up. -/
theorem IsUpdate.logpdf_apart (hr : N1.r = zs1.length) (hc : N1.c = zs1.length) (l1 : y1.length = zs1.length)
    (pj : (noisyGram S (zs1 ++ zs2) (N1.dsum N2)).PosDef) (h0 : ∀ z ∈ zs1, ∀ w ∈ zs2, S.C z w = 0) :
    (obsNormal S (zs1 ++ zs2) (N1.dsum N2)).logpdfFull (fun i => (y1 ++ y2).getD i 0) =
      (obsNormal S zs1 N1).logpdfFull (fun i => y1.getD i 0) + (obsNormal S zs2 N2).logpdfFull fun i => y2.getD i 0 := by
  have p1 := noisyGram_left hr hc pj
  have u1 := SO.observe_isUpdate (S := S) (y := y1) hr hc
  rw [u1.chain p1 pj l1]
  generalize S.observe _ _ _ = S1 at u1
  congr 2
  have hz : ∀ w ∈ zs2, (∀ v, S1.C w v = S.C w v) ∧ S1.E w = S.E w := fun w hw =>
    ⟨(u1.unrelated p1 fun z hz => h0 z hz w hw).1, (u1.unrelated p1 fun z hz => h0 z hz w hw).2 l1⟩
  unfold obsNormal
  congr 1
  · funext i
    exact (hz _ (List.get_mem zs2 i)).2
  · ext i j
    show S1.C _ _ + _ = S.C _ _ + _
    rw [(hz _ (List.get_mem zs2 i)).1]

/-! ## Random functions in a subspace -/

/-- All values of a random function are in a subspace. -/
def RF.In (G : RF V) (W : Submodule ℝ V) : Prop := ∀ x vs, G x = some vs → ∀ v ∈ vs, v ∈ W

theorem flatten_mem {α : Type} {g : α → Option (List V)} {P : V → Prop} {ps : List α} {vss : List (List V)}
    (h : ps.mapM g = some vss) (hg : ∀ p ∈ ps, ∀ vs, g p = some vs → ∀ v ∈ vs, P v) : ∀ v ∈ vss.flatten, P v := by
  induction ps generalizing vss with
  | nil => rw [List.mapM_nil] at h; cases h; intro v hv; cases hv
  | cons p ps ih =>
    obtain ⟨b, bs, hb, hbs, rfl⟩ := mapM_cons_some h
    intro v hv
    rw [List.flatten_cons, List.mem_append] at hv
    rcases hv with hv | hv
    · exact hg p (by simp) b hb v hv
    · exact ih hbs (fun q hq => hg q (by simp [hq])) v hv

/-- It suffices to look at inputs that are not tuples. -/
theorem RF.In.of_atoms {G : RF V} {W : Submodule ℝ V} (hG : G.OK) (h : ∀ x vs, x.IsAtom → G x = some vs → ∀ v ∈ vs, v ∈ W) : G.In W := by
  intro x
  induction x using Input.atomInd with
  | atom x hx => exact fun vs => h x vs hx
  | tup xs ih =>
    intro vs hv
    rw [hG.tup] at hv
    obtain ⟨vss, hv, rfl⟩ := Option.map_eq_some_iff.1 hv
    exact flatten_mem ‹_› ih

theorem RF.In.zip {β : Type} {f : V → β → V} {vs : List V} {us : List β} {W : Submodule ℝ V} (hv : ∀ v ∈ vs, ∀ u, f v u ∈ W) :
    ∀ w ∈ List.zipWith f vs us, w ∈ W := by
  intro w hw
  obtain ⟨i, hi, rfl⟩ := List.getElem_of_mem hw
  rw [List.getElem_zipWith]
  exact hv _ (List.getElem_mem _) _

/-- What a process is made of is in a subspace that has the constants, so the process is, unless it is new. -/
theorem Interp.DefLaw.subspace {I : Interp V} {lm : MId → PId → Option MExpr} {lk : MId → PId → PId → Option KExpr} {m : MId} {known : List PId} {res : PId}
    {d : ProcDef} (h : I.DefLaw lm lk m known res d) (hok : (I.F m res).OK) {W : Submodule ℝ V} (h1 : I.one ∈ W)
    (hs : ∀ (f : ℝ → V) w, (∀ t, f t ∈ W) → (I.S m).Slope f w → w ∈ W) (hi : ∀ a k, d ≠ .indep a k) (hc : ∀ a k l, d ≠ .custom a k l) (hr : ∀ p q, d ≠ .rem p q)
    (hq : ∀ q ∈ d.refs, (I.F m q).In W) : (I.F m res).In W := by
  refine .of_atoms hok fun x vs hx hv => ?_
  cases d with
  | indep a k => exact (hi _ _ rfl).elim
  | custom a k l => exact (hc _ _ _ rfl).elim
  | rem p q => exact (hr _ _ rfl).elim
  | addFn p f =>
    have hp := hq p (by simp [ProcDef.refs])
    rw [h x hx] at hv
    obtain ⟨us, hu, hv⟩ := bind_some hv
    obtain ⟨ts, _, hv⟩ := bind_some hv
    cases hv
    exact RF.In.zip fun v hv t => W.add_mem (hp _ _ hu v hv) (W.smul_mem _ h1)
  | sum p q =>
    have hp := hq p (by simp [ProcDef.refs])
    have hq := hq q (by simp [ProcDef.refs])
    obtain ⟨us, ws, hu, hw, hl, rfl⟩ := sum_law (h x hx) hv
    intro v hv
    obtain ⟨i, hi, rfl⟩ := List.getElem_of_mem hv
    rw [List.getElem_zipWith]
    exact W.add_mem (hp _ _ hu _ (List.getElem_mem _)) (hq _ _ hw _ (List.getElem_mem _))
  | scale p c =>
    have hp := hq p (by simp [ProcDef.refs])
    rw [h x hx] at hv
    obtain ⟨us, hu, rfl⟩ := Option.map_eq_some_iff.1 hv
    intro v hv
    obtain ⟨u, hu', rfl⟩ := List.mem_map.1 hv
    exact W.smul_mem _ (hp _ _ hu u hu')
  | fmul p f =>
    have hp := hq p (by simp [ProcDef.refs])
    rw [h x hx] at hv
    obtain ⟨us, hu, hv⟩ := bind_some hv
    obtain ⟨ts, _, hv⟩ := bind_some hv
    cases hv
    exact RF.In.zip fun v hv t => W.smul_mem _ (hp _ _ hu v hv)
  | pre p t =>
    have hp := hq p (by simp [ProcDef.refs])
    rw [h x hx] at hv
    obtain ⟨x', _, hv⟩ := bind_some hv
    exact hp _ _ hv
  | diff p d =>
    have hp := hq p (by simp [ProcDef.refs])
    obtain ⟨h2, h3, h4⟩ := h
    cases x with
    | tup xs => exact hx.elim
    | fdd q x => rw [h3] at hv; cases hv
    | num xs =>
      rw [h2] at hv
      intro v hv'
      obtain ⟨x, hx, hd⟩ := mapM_source hv v hv'
      refine hs _ _ (fun t => ?_) (h4 x v hd)
      unfold pointOf
      split
      · next e => exact hp _ _ e _ (by simp)
      · exact W.zero_mem
  | cross ps =>
    obtain ⟨h2, h3⟩ := h
    cases x with
    | tup xs => exact hx.elim
    | num xs =>
      rw [h2] at hv
      obtain ⟨vss, hv, rfl⟩ := Option.map_eq_some_iff.1 hv
      exact flatten_mem ‹_› fun p hp vs h => hq p hp _ _ h
    | fdd q x =>
      rw [h3] at hv
      split at hv
      · next e => exact hq q e _ _ hv
      · cases hv
  | copy p =>
    have hp := hq p (by simp [ProcDef.refs])
    rw [show I.F m res = I.F m p from h] at hv
    exact hp _ _ hv

/-! ## Parts -/

/-- A process that is in a part is made only from processes of the same part, and not with a rule of the user. -/
def InPart (κ : PId → Option ℕ) (e : PId × ProcDef) : Prop :=
  ∀ c, κ e.1 = some c → (∀ q ∈ e.2.refs, κ q = some c) ∧ ∀ a k l, e.2 ≠ .custom a k l

/-- Every value that is observed is a value of a process of some part, and the noise of values of different parts is uncorrelated. Inducing points are of one part. -/
def Interp.ObsApart (I : Interp V) (κ : PId → Option ℕ) (ops : List Op) (m : MId) : Obs → Prop
  | .exact p x N _ => ∀ zs, I.F m p x = some zs → ∃ c : Fin zs.length → ℕ,
      (∀ i, ∃ q x' vs, Attached (runOps ops {}) m q ∧ κ q = some (c i) ∧ I.F m q x' = some vs ∧ zs.get i ∈ vs) ∧ ∀ i j, c i ≠ c j → N.e i j = 0
  | .pseudo pu _ _ => (κ pu).isSome ∧ Attached (runOps ops {}) m pu

/-- The processes of a program are in parts. -/
structure Interp.Apart (I : Interp V) (κ : PId → Option ℕ) (ops : List Op) : Prop where
  defs : ∀ before o after, ops = before ++ o :: after → ∀ m, ∀ e ∈ o.written (runOps before {}).gps.length m, InPart κ e
  obs : ∀ before m obs after, ops = before ++ .condition m obs :: after → HasMeasure (runOps before {}) m → I.ObsApart κ ops m obs

/-- Processes of different parts are uncorrelated in every measure. -/
theorem Interp.Reads.parts_orth {I : Interp V} {κ : PId → Option ℕ} {ops : List Op} (h : I.Reads ops) (hf : I.Firm ops) (ha : I.Apart κ ops) :
    ∀ {m : MId} {p q : PId} {c c' : ℕ}, Attached (runOps ops {}) m p → Attached (runOps ops {}) m q → κ p = some c → κ q = some c' → c ≠ c' →
      (I.S m).Orth (I.F m p) (I.F m q) := by
  have hl := h.laws
  have iv := Inv.reach ops
  intro m
  induction m using Nat.strong_induction_on with
  | _ m ih =>
    intro p q c c' hp hq
    obtain ⟨a, hm, hp⟩ := iv.attached.1 hp
    obtain ⟨a', hm', hq⟩ := iv.attached.1 hq
    rw [hm] at hm'; cases hm'
    have wf := iv.wf.ms m a hm
    have hbase : ∀ p ∈ a.basePs, ∀ q ∈ a.basePs, ∀ c c', κ p = some c → κ q = some c' → c ≠ c' → (I.S m).Orth (I.F m p) (I.F m q) := by
      intro p hp q hq c c' ep eq hne
      cases hb : a.base with
      | none => rw [wf.base_none hb] at hp; simp at hp
      | some u =>
        obtain ⟨b, hb', hsub⟩ := wf.base_sub u hb
        obtain ⟨hF, hP⟩ := hl.post m a u hm hb
        have lt := wf.base_lt u hb
        have att : ∀ q ∈ a.basePs, Attached (runOps ops {}) u.prior q := fun q hq => iv.attached.2 ⟨b, hb', hsub q hq⟩
        have h0 := ih u.prior lt (att p hp) (att q hq) ep eq hne
        obtain ⟨before, after, e, hh, -, -⟩ := base_from ops m a u hm hb
        have ho := ha.obs before u.prior u.obs after e hh
        have hfo := hf before u.prior u.obs after e hh
        rw [hF p hp, hF q hq]
        intro x y vs ws hv hw v hv' w hw'
        cases hu : u.obs with
        | exact p0 x0 N y0 =>
          rw [hu] at hP ho hfo
          rcases hP with ⟨_, e⟩ | ⟨_, zs, hz, hU⟩
          · rw [e]; exact h0 x y vs ws hv hw v hv' w hw'
          · obtain ⟨cz, hcz, hN⟩ := ho zs hz
            obtain ⟨hpd, _⟩ := hfo zs hz
            have hne' : ∀ i p' c0 x' us u', cz i ≠ c0 → Attached (runOps ops {}) u.prior p' → κ p' = some c0 → I.F u.prior p' x' = some us → u' ∈ us → (I.S u.prior).C (zs.get i) u' = 0 := by
              intro i p' c0 x' us u' hne hp' ep' hx' hu'
              obtain ⟨q0, x0, vs0, hq0, eq0, hv0, hm0⟩ := hcz i
              exact ih u.prior lt hq0 hp' eq0 ep' hne _ _ _ _ hv0 hx' _ hm0 _ hu'
            refine hU.apart hpd (fun i => cz i = c) (fun i j hi hj => ?_) (fun i hi => ?_) (fun i hi => ?_) (h0 x y vs ws hv hw v hv' w hw')
            · obtain ⟨q0, x0, vs0, hq0, eq0, hv0, hm0⟩ := hcz j
              have hij : cz i ≠ cz j := fun e => hj (e.symm.trans hi)
              show (I.S u.prior).C (zs.get i) (zs.get j) + N.e i j = 0
              rw [hne' i q0 (cz j) x0 vs0 _ hij hq0 eq0 hv0 hm0, hN i j hij, add_zero]
            · exact hne' i p c x vs v hi (att p hp) ep hv hv'
            · exact hne' i q c' y ws w (fun e => hne (hi.symm.trans e)) (att q hq) eq hw hw'
        | pseudo pu p0 o =>
          rw [hu] at hP ho hfo
          obtain ⟨zs, xs, hz, hx, hU⟩ := hP
          obtain ⟨hpd, _⟩ := hfo zs xs hz hx
          obtain ⟨c0, e0⟩ := Option.isSome_iff_exists.1 ho.1
          rw [hU.C hpd, h0 x y vs ws hv hw v hv' w hw']
          by_cases hc : c0 = c
          · have hzw : ∀ a, (I.S u.prior).C (zs.get a) w = 0 := fun a =>
              ih u.prior lt ho.2 (att q hq) e0 eq (hc ▸ hne) _ _ _ _ hz hw _ (List.get_mem zs a) _ hw'
            simp only [quadSum, hzw, mul_zero, Finset.sum_const_zero, sub_zero, add_zero]
          · have hzv : ∀ a, (I.S u.prior).C (zs.get a) v = 0 := fun a =>
              ih u.prior lt ho.2 (att p hp) e0 ep hc _ _ _ _ hz hv _ (List.get_mem zs a) _ hv'
            simp only [quadSum, hzv, zero_mul, Finset.sum_const_zero, sub_zero, add_zero]
    have hdefs : ∀ es', (∃ es, a.defs = es ++ es') → ∀ p ∈ knownOf a.basePs es', ∀ q ∈ knownOf a.basePs es', ∀ c c', κ p = some c → κ q = some c' → c ≠ c' →
        (I.S m).Orth (I.F m p) (I.F m q) := by
      intro es'
      induction es' with
      | nil =>
        intro _ p hp q hq
        exact hbase p (by simpa [knownOf] using hp) q (by simpa [knownOf] using hq)
      | cons e es' ihd =>
        rintro ⟨es, hes⟩
        obtain ⟨r, d⟩ := e
        have ihd := ihd ⟨es ++ [(r, d)], by rw [hes]; simp⟩
        have law := hl.defs m a es r d es' hm hes
        have part := defs_from (InPart κ) ops ha.defs m a hm (r, d) (by rw [hes]; simp)
        have hrefs := scoped_refs wf.inScope hes
        have new : ∀ q ∈ knownOf a.basePs es', ∀ c c', κ r = some c → κ q = some c' → c ≠ c' → (I.S m).Orth (I.F m r) (I.F m q) := by
          intro q hq c c' er eq hne
          by_cases hi : ∃ a k, d = .indep a k
          · obtain ⟨_, _, rfl⟩ := hi
            exact law.2.2 q hq
          by_cases hre : ∃ a b, d = .rem a b
          · obtain ⟨_, _, rfl⟩ := hre
            exact law.2.2 q hq
          obtain ⟨pr, pc⟩ := part c er
          intro x y vs ws hv hw v hv' w hw'
          refine law.subspace (h.ok m r) (W := LinearMap.ker ((I.S m).C.flip w)) ?_ (fun f w' hf hs => ?_) (fun a k e => hi ⟨a, k, e⟩) pc
            (fun p q e => hre ⟨p, q, e⟩) (fun q' hq' x' vs' hv0 v0 hv0' => ?_) x vs hv v hv'
          · exact h.one_C m w
          · have h1 := hs.2 w
            have h2 : (fun t => (I.S m).C (f t) w) = fun _ => 0 := funext fun t => hf t
            rw [h2] at h1
            exact h1.unique (hasDerivAt_const 0 0)
          · exact ihd q' (hrefs q' hq') q hq c c' (pr q' hq') eq hne _ _ _ _ hv0 hw _ hv0' _ hw'
        have split : ∀ p, p ∈ knownOf a.basePs ((r, d) :: es') → p = r ∨ p ∈ knownOf a.basePs es' := by
          intro p hp
          rw [mem_knownOf] at hp ⊢
          simp only [List.map_cons, List.mem_cons] at hp
          tauto
        intro p hp q hq c c' ep eq hne
        rcases split p hp with e1 | hp' <;> rcases split q hq with e2 | hq'
        · rw [e1] at ep; rw [e2, ep] at eq; cases eq; exact (hne rfl).elim
        · rw [e1] at ep ⊢; exact new q hq' c c' ep eq hne
        · rw [e2] at eq ⊢; exact (new p hp' c' c eq ep hne.symm).symm
        · exact ihd p hp' q hq' c c' ep eq hne
    intro ep eq hne
    exact hdefs a.defs ⟨[], rfl⟩ p hp q hq c c' ep eq hne

end

end Stheno
