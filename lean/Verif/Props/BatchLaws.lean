import Verif.Props.BatchInfer
import Verif.Props.Surrogate

/-!
# Posteriors for batches

C77: what is proved about posteriors holds at every index of a batch.
-/

namespace Stheno

open Ten Matrix

namespace Bat

variable {G : Dom} {N : PId → ℕ} {d u : List ℕ} {ops b b' : List BOp} {m m1 m2 mj : MId} {q q' : PId} {l l' l1 l2 : List (BFdd × BVals)} {t t' xs ys : Ten ℝ}

/-- The inputs at an index. -/
abbrev rowsAt (xs : Ten ℝ) (d : List ℕ) : List Pt := (List.range xs.nrows).map fun i => xs.row i d

/-- Within `ops`, after `before`, the measure `m` is conditioned on the observations `o`, which makes the measure `m1`. -/
structure Gives (ops before : List BOp) (m : MId) (o : BObs) (m1 : MId) : Prop where
  split : ∃ after, ops = before ++ .condition m o :: after
  has : m < (runOps before {}).ms.length
  id : m1 = (runOps before {}).ms.length

theorem length_at (b : List BOp) (d : List ℕ) : (Stheno.runOps (b.map (·.at' d)) {}).ms.length = (runOps b {}).ms.length := by
  rw [← C72_state]
  exact List.length_map _

theorem Gives.at {o : BObs} (g : Gives ops b m o m1) (d : List ℕ) : Stheno.Gives (ops.map (·.at' d)) (b.map (·.at' d)) m (o.at' d) m1 := by
  obtain ⟨⟨after, rfl⟩, h1, h2⟩ := g
  refine ⟨⟨after.map (·.at' d), ?_⟩, lt_of_lt_of_eq h1 (length_at b d).symm, h2.trans (length_at b d).symm⟩
  rw [List.map_append, List.map_cons]
  rfl

/-- **C77, variances.** In all programs, for exact observations and pseudo-observations with batch dimensions: at every index of the batch, conditioning does not increase variances. -/
theorem C77_variance {o : BObs} (h : ∀ o ∈ ops, (Keep.fits u).Op o) (g : Gives ops b m o m1) (hq : Attached (runOps b {}) m q) (hx : (BInput.num xs).Fits u)
    (e : KernelCall (runOps ops {}) m q q (.num xs) (.num xs) t) (e' : KernelCall (runOps ops {}) m1 q q (.num xs) (.num xs) t') :
    ∃ n c, t.shape.take 2 = [c, n] ∧ ∀ d, In d u → t'.shape.take 2 = [c, n] ∧ ∀ i < n, i < c → t'.get (i :: i :: d) ≤ t.get (i :: i :: d) := by
  obtain ⟨n, c, s, h1, -, h3⟩ := C72_kernel h hx hx e
  obtain ⟨n', c', s', h1', -, h3'⟩ := C72_kernel h hx hx e'
  have key : ∀ d, In d u → n' = n ∧ c' = c ∧ ∀ i < n, i < c → t'.get (i :: i :: d) ≤ t.get (i :: i :: d) := fun d hd => by
    obtain ⟨A, a1, a2, a3, a4⟩ := h3 d hd
    obtain ⟨A', a1', a2', a3', a4'⟩ := h3' d hd
    have : ∃ A, Stheno.KernelCall (Stheno.runOps (ops.map (·.at' d)) {}) m q q ((BInput.num xs).at' d) ((BInput.num xs).at' d) A ∧ A'.r = A.r ∧ A'.c = A.c ∧ ∀ s, A'.e s s ≤ A.e s s := by
      cases o with
      | exact _ _ _ _ => exact C21_variance (x := (BInput.num xs).at' d) (g.at d) (hq.at d) trivial a1'
      | pseudo _ _ _ => exact C21_sparse (x := (BInput.num xs).at' d) (g.at d) (hq.at d) trivial a1'
    obtain ⟨B, b1, b2, b3, b4⟩ := this
    cases b1.unique a1
    have e1 : n' = n := by rw [← a2', ← a2, b2]
    have e2 : c' = c := by rw [← a3', ← a3, b3]
    refine ⟨e1, e2, fun i hi hc => ?_⟩
    rw [← a4 i hi i hc, ← a4' i (e1 ▸ hi) i (e2 ▸ hc)]
    exact b4 i
  refine ⟨n, c, by rw [h1]; rfl, fun d hd => ⟨?_, (key d hd).2.2⟩⟩
  rw [h1', (key d hd).1, (key d hd).2.1]
  rfl

/-- **C77, covariance matrices.** In regular programs, in the prior and in all posteriors: what kernels return for a batch of inputs is at every index of the batch a symmetric positive
semi-definite matrix. -/
theorem C77_posSemidef (h : ∀ o ∈ ops, (Keep.fits u).Op o) (hR : ∀ d, In d u → Regular G (ops.map (·.at' d))) (hq : Attached (runOps ops {}) m q) (hx : (BInput.num xs).Fits u)
    (cx : ∀ d, In d u → Rows (G q) (rowsAt xs d)) (e : KernelCall (runOps ops {}) m q q (.num xs) (.num xs) t) :
    ∀ d, In d u → (t.mat xs.nrows xs.nrows d).PosSemidef := by
  intro d hd
  obtain ⟨n, c, s, h1, -, h3⟩ := C72_kernel h hx hx e
  obtain ⟨A, a1, a2, a3, a4⟩ := h3 d hd
  have R := hR d hd
  obtain ⟨A', hA', r1, r2⟩ := R.kernel (hq.at d) (hq.at d) (cx d hd) (cx d hd)
  obtain ⟨vs, hF, lv⟩ := R.value (hq.at d) (cx d hd)
  have k := R.kernel_eq (hq.at d) (hq.at d) (cx d hd) (cx d hd) a1 hF hF
  cases a1.unique hA'
  have hl : vs.length = xs.nrows := by rw [lv]; simp
  have hn : n = xs.nrows := by rw [← a2, r1]; simp
  have hc : c = xs.nrows := by rw [← a3, r2]; simp
  have hg := (gram_posSemidef _ vs (R.pos m)).submatrix (Fin.cast hl.symm)
  convert hg using 1
  ext i j
  show t.get (j :: i :: d) = _
  rw [← a4 i (by omega) j (by omega), k.e i (hl.symm ▸ i.2 : (i : ℕ) < vs.length) j (hl.symm ▸ j.2 : (j : ℕ) < vs.length)]
  simp [covMat, gram, hl]

theorem mean_same (h : ∀ o ∈ ops, (Keep.fits u).Op o) (hd : In d u) (hR : Regular G (ops.map (·.at' d))) (hq : Stheno.Attached (Stheno.runOps (ops.map (·.at' d)) {}) m1 q) (hx : (BInput.num xs).Fits u)
    (cx : Rows (G q) (rowsAt xs d)) (e : MeanCall (runOps ops {}) m1 q (.num xs) t) (e' : MeanCall (runOps ops {}) m2 q (.num xs) t')
    (hv : ∀ v, Stheno.MeanCall (Stheno.runOps (ops.map (·.at' d)) {}) m1 q (.num (rowsAt xs d)) v ↔ Stheno.MeanCall (Stheno.runOps (ops.map (·.at' d)) {}) m2 q (.num (rowsAt xs d)) v) :
    ∀ i < xs.nrows, t.get (0 :: i :: d) = t'.get (0 :: i :: d) := by
  obtain ⟨r, s, -, -, h3⟩ := C72_mean h hx e
  obtain ⟨r', s', -, -, h3'⟩ := C72_mean h hx e'
  obtain ⟨v, v1, v2, v3⟩ := h3 d hd
  obtain ⟨v', v1', v2', v3'⟩ := h3' d hd
  obtain ⟨w, w1, w2⟩ := hR.mean hq cx
  cases v1.unique w1
  cases ((hv _).1 v1).unique v1'
  intro i hi
  have hl : v.length = xs.nrows := by rw [w2]; simp
  exact Option.some.inj ((v3 i (by omega)).symm.trans (v3' i (by omega)))

theorem kernel_same (h : ∀ o ∈ ops, (Keep.fits u).Op o) (hd : In d u) (hR : Regular G (ops.map (·.at' d))) (hq : Stheno.Attached (Stheno.runOps (ops.map (·.at' d)) {}) m1 q)
    (hq' : Stheno.Attached (Stheno.runOps (ops.map (·.at' d)) {}) m1 q')    (hx : (BInput.num xs).Fits u) (hy : (BInput.num ys).Fits u) (cx : Rows (G q) (rowsAt xs d)) (cy : Rows (G q') (rowsAt ys d))
    (e : KernelCall (runOps ops {}) m1 q q' (.num xs) (.num ys) t) (e' : KernelCall (runOps ops {}) m2 q q' (.num xs) (.num ys) t')
    (hv : ∃ A A', Stheno.KernelCall (Stheno.runOps (ops.map (·.at' d)) {}) m1 q q' (.num (rowsAt xs d)) (.num (rowsAt ys d)) A ∧
      Stheno.KernelCall (Stheno.runOps (ops.map (·.at' d)) {}) m2 q q' (.num (rowsAt xs d)) (.num (rowsAt ys d)) A' ∧ A.Eqv A') :
    ∀ i < xs.nrows, ∀ j < ys.nrows, t.get (j :: i :: d) = t'.get (j :: i :: d) := by
  obtain ⟨r, c, s, -, -, h3⟩ := C72_kernel h hx hy e
  obtain ⟨r', c', s', -, -, h3'⟩ := C72_kernel h hx hy e'
  obtain ⟨A, a1, a2, a3, a4⟩ := h3 d hd
  obtain ⟨A', a1', a2', a3', a4'⟩ := h3' d hd
  obtain ⟨B, B', b1, b2, b3⟩ := hv
  cases a1.unique b1
  cases a1'.unique b2
  obtain ⟨C, c1, c2, c3⟩ := hR.kernel hq hq' cx cy
  cases a1.unique c1
  have hr : A.r = xs.nrows := by rw [c2]; simp
  have hc : A.c = ys.nrows := by rw [c3]; simp
  have er := b3.r
  have ec := b3.c
  intro i hi j hj
  rw [← a4 i (by omega) j (by omega), ← a4' i (by omega) j (by omega)]
  exact b3.e i (by omega) j (by omega)

/-- At an index, processes of the prior are attached to the posterior. -/
theorem Conditioned.attached (c : Conditioned u ops b m l m1) (hd : In d u) (ht : Tells (Dead G) N (ops.map (·.at' d))) (hl : ∀ e ∈ l, FitsV G (pairAt d e))
    (hq : Attached (runOps b {}) m q) : Stheno.Attached (Stheno.runOps (ops.map (·.at' d)) {}) m1 q := by
  obtain ⟨bq, o, h1, g, -, -⟩ := (c.at hd).gives ht fun e he => by
    obtain ⟨e', he', rfl⟩ := List.mem_map.1 he
    exact hl e' he'
  exact g.attached (attached_pre (hq.at d) h1)

/-- **C77, notations and order.** In regular programs: conditioning on the same pairs at every index, in any order and in all notations, gives means
and kernels that return the same at every index of the batch. -/
theorem C77_same (h : ∀ o ∈ ops, (Keep.fits u).Op o) (hR : ∀ d, In d u → Regular G (ops.map (·.at' d)) ∧ Tells (Dead G) N (ops.map (·.at' d)))
    (c1 : Conditioned u ops b m l m1) (c2 : Conditioned u ops b' m l' m2) (hl : ∀ d, In d u → ∀ e ∈ l, FitsV G (pairAt d e)) (hl' : ∀ d, In d u → ∀ e ∈ l', FitsV G (pairAt d e))
    (hp : ∀ d, In d u → ((l.map (pairAt d)).map available).Perm ((l'.map (pairAt d)).map available))
    (hq : Attached (runOps b {}) m q) (kq : Attached (runOps b' {}) m q) (hq' : Attached (runOps b {}) m q') (kq' : Attached (runOps b' {}) m q')
    (hx : (BInput.num xs).Fits u) (hy : (BInput.num ys).Fits u) (cx : ∀ d, In d u → Rows (G q) (rowsAt xs d)) (cy : ∀ d, In d u → Rows (G q') (rowsAt ys d)) :
    (∀ t t', MeanCall (runOps ops {}) m1 q (.num xs) t → MeanCall (runOps ops {}) m2 q (.num xs) t' →
      ∀ d, In d u → ∀ i < xs.nrows, t.get (0 :: i :: d) = t'.get (0 :: i :: d)) ∧
    ∀ t t', KernelCall (runOps ops {}) m1 q q' (.num xs) (.num ys) t → KernelCall (runOps ops {}) m2 q q' (.num xs) (.num ys) t' →
      ∀ d, In d u → ∀ i < xs.nrows, ∀ j < ys.nrows, t.get (j :: i :: d) = t'.get (j :: i :: d) := by
  have key := fun d hd => C25_regular (hR d hd).1 (hR d hd).2 (c1.at hd) (c2.at hd)
    (fun e he => by obtain ⟨e', he', rfl⟩ := List.mem_map.1 he; exact hl d hd e' he') (fun e he => by obtain ⟨e', he', rfl⟩ := List.mem_map.1 he; exact hl' d hd e' he')
    (hp d hd) (hq.at d) (kq.at d) (hq'.at d) (kq'.at d) (cx d hd) (cy d hd)
  exact ⟨fun t t' e e' d hd => mean_same h hd (hR d hd).1 (c1.attached hd (hR d hd).2 (hl d hd) hq) hx (cx d hd) e e' (key d hd).1,
    fun t t' e e' d hd => kernel_same h hd (hR d hd).1 (c1.attached hd (hR d hd).2 (hl d hd) hq) (c1.attached hd (hR d hd).2 (hl d hd) hq') hx hy (cx d hd) (cy d hd) e e' (key d hd).2⟩

/-- **C77, sequential conditioning.** In regular programs: conditioning on some pairs, and then, in the posterior, on others, gives at every index of the batch the same as conditioning
on all of them at once, if both have a value at every index. -/
theorem C77_sequential {b2 bj : List BOp} (h : ∀ o ∈ ops, (Keep.fits u).Op o) (hR : ∀ d, In d u → Regular G (ops.map (·.at' d)) ∧ Tells (Dead G) N (ops.map (·.at' d)))
    (c1 : Conditioned u ops b m l1 m1) (c2 : Conditioned u ops b2 m1 l2 m2) (cj : Conditioned u ops bj m (l1 ++ l2) mj)
    (hl1 : ∀ d, In d u → ∀ e ∈ l1, FitsV G (pairAt d e)) (hl2 : ∀ d, In d u → ∀ e ∈ l2, FitsV G (pairAt d e))
    (n1 : ∀ d, In d u → ∃ e ∈ l1, numElements (available (pairAt d e)).1.x ≠ 0) (n2 : ∀ d, In d u → ∃ e ∈ l2, numElements (available (pairAt d e)).1.x ≠ 0)
    (ha : ∀ e ∈ l2, Attached (runOps b {}) m e.1.p)
    (hq : Attached (runOps b {}) m q) (kq : Attached (runOps bj {}) m q) (hq' : Attached (runOps b {}) m q') (kq' : Attached (runOps bj {}) m q')
    (hx : (BInput.num xs).Fits u) (hy : (BInput.num ys).Fits u) (cx : ∀ d, In d u → Rows (G q) (rowsAt xs d)) (cy : ∀ d, In d u → Rows (G q') (rowsAt ys d)) :
    (∀ t t', MeanCall (runOps ops {}) mj q (.num xs) t → MeanCall (runOps ops {}) m2 q (.num xs) t' →
      ∀ d, In d u → ∀ i < xs.nrows, t.get (0 :: i :: d) = t'.get (0 :: i :: d)) ∧
    ∀ t t', KernelCall (runOps ops {}) mj q q' (.num xs) (.num ys) t → KernelCall (runOps ops {}) m2 q q' (.num xs) (.num ys) t' →
      ∀ d, In d u → ∀ i < xs.nrows, ∀ j < ys.nrows, t.get (j :: i :: d) = t'.get (j :: i :: d) := by
  have mem : ∀ {l : List (BFdd × BVals)} {d}, (∀ e ∈ l, FitsV G (pairAt d e)) → ∀ e ∈ l.map (pairAt d), FitsV G e := fun hl e he => by
    obtain ⟨e', he', rfl⟩ := List.mem_map.1 he
    exact hl e' he'
  have av : ∀ {l : List (BFdd × BVals)} {d}, (∀ e ∈ l, FitsV G (pairAt d e)) → ∀ e ∈ (l.map (pairAt d)).map available, Fits G e := fun hl e he => by
    obtain ⟨e', he', rfl⟩ := List.mem_map.1 he
    exact (mem hl e' he').fits
  have some : ∀ {l : List (BFdd × BVals)} {d}, (∃ e ∈ l, numElements (available (pairAt d e)).1.x ≠ 0) → ∃ e ∈ (l.map (pairAt d)).map available, numElements e.1.x ≠ 0 :=
    fun ⟨e, he, h⟩ => ⟨_, List.mem_map_of_mem (List.mem_map_of_mem he), h⟩
  have hlj : ∀ d, In d u → ∀ e ∈ l1 ++ l2, FitsV G (pairAt d e) := fun d hd e he => (List.mem_append.1 he).elim (hl1 d hd e) (hl2 d hd e)
  have key : ∀ d, In d u →
      (∀ v, Stheno.MeanCall (Stheno.runOps (ops.map (·.at' d)) {}) m2 q (.num (rowsAt xs d)) v ↔ Stheno.MeanCall (Stheno.runOps (ops.map (·.at' d)) {}) mj q (.num (rowsAt xs d)) v) ∧
      ∃ A A', Stheno.KernelCall (Stheno.runOps (ops.map (·.at' d)) {}) m2 q q' (.num (rowsAt xs d)) (.num (rowsAt ys d)) A ∧
        Stheno.KernelCall (Stheno.runOps (ops.map (·.at' d)) {}) mj q q' (.num (rowsAt xs d)) (.num (rowsAt ys d)) A' ∧ A.Eqv A' := fun d hd => by
    obtain ⟨q1, o1, p1, g1, ho1, a1⟩ := (c1.at hd).gives (hR d hd).2 (mem (hl1 d hd))
    obtain ⟨q2, o2, p2, g2, ho2, a2⟩ := (c2.at hd).gives (hR d hd).2 (mem (hl2 d hd))
    obtain ⟨qj, oj, pj, gj, hoj, aj⟩ := (cj.at hd).gives (hR d hd).2 (mem (hlj d hd))
    rw [List.map_append, List.map_append] at hoj
    exact C18_regular (hR d hd).1 g1 g2 gj ho1 ho2 hoj (av (hl1 d hd)) (av (hl2 d hd)) (some (n1 d hd)) (some (n2 d hd))
      (fun e he => by obtain ⟨e', he', rfl⟩ := List.mem_map.1 he; exact a1 e' he')
      (fun e he => by
        obtain ⟨e', he', rfl⟩ := List.mem_map.1 he
        obtain ⟨e'', he'', rfl⟩ := List.mem_map.1 he'
        exact attached_pre ((ha e'' he'').at d) p1)
      (attached_pre (hq.at d) p1) (attached_pre (kq.at d) pj) (attached_pre (hq'.at d) p1) (attached_pre (kq'.at d) pj) (cx d hd) (cy d hd)
  refine ⟨fun t t' e e' d hd => mean_same h hd (hR d hd).1 (cj.attached hd (hR d hd).2 (hlj d hd) kq) hx (cx d hd) e e' fun v => ((key d hd).1 v).symm,
    fun t t' e e' d hd => kernel_same h hd (hR d hd).1 (cj.attached hd (hR d hd).2 (hlj d hd) kq) (cj.attached hd (hR d hd).2 (hlj d hd) kq') hx hy (cx d hd) (cy d hd) e e' ?_⟩
  obtain ⟨A, A', k1, k2, k3⟩ := (key d hd).2
  exact ⟨A', A, k2, k1, k3.symm⟩

/-- After the program `b`, and within `ops`, the measure `m` is conditioned on pseudo-observations of the pairs `l` with inducing points `fs`, which makes the measure `m1`. Batch
dimensions can be broadcast to `u`. -/
inductive ConditionedU (u : List ℕ) (ops b : List BOp) (m : MId) (μ : Method) (fs : List BFdd) (l : List (BFdd × BVals)) (m1 : MId) : Prop
  | mk {b0 : List BOp} {ord ord' : List MId} {g : Bool} {us : BUArg} {as : List BArg} {os : List BOp} {o : BObs} (hu : BWrittenU us fs) (hw : BWritten as l)
      (ho : mkPseudo (runOps b0 {}) ord ord' μ g us as = some (os, o)) (h0 : b0 ++ os <+: b) (g : Gives ops b m o m1)
      (hs : us.Wide ∧ Fine u as) (au : ∀ f ∈ fs, Attached (runOps b0 {}) m f.p) (al : ∀ e ∈ l, Attached (runOps b0 {}) m e.1.p)

/-- Conditioning on pseudo-observations at an index. -/
theorem ConditionedU.at {μ : Method} {fs : List BFdd} (c : ConditionedU u ops b m μ fs l m1) (hd : In d u) :
    Stheno.ConditionedU (ops.map (·.at' d)) (b.map (·.at' d)) m μ (fs.map (·.at' d)) (l.map (pairAt d)) m1 := by
  obtain @⟨b0, ord, ord', g, us, as, os, o, hu, hw, ho, h0, hg, ⟨s1, s2⟩, au, al⟩ := c
  obtain ⟨⟨after, e⟩, g2, g3⟩ := hg.at d
  refine .mk (n := 0) (ord := []) (o := o.at' d) (os := [.condition m (o.at' d)]) (.mk (hu.at d) (hw.at d) (C75_make b0 0 ho s1 s2 hd) ?_ ?_ ?_) rfl ⟨after, by rw [e]; simp⟩ g2 ?_
  · rw [← List.map_append]
    exact prefix_at h0 d
  · intro f hf
    obtain ⟨f', hf', rfl⟩ := List.mem_map.1 hf
    exact (au f' hf').at d
  · intro e he
    obtain ⟨e', he', rfl⟩ := List.mem_map.1 he
    exact (al e' he').at d
  · rw [condition_length g2, g3]

/-- **C77, inducing points at the data.** In regular programs, for VFE, FITC and DTC: with inducing points at the data at every index, conditioning on pseudo-observations gives at every
index of the batch the same as conditioning on the data. -/
theorem C77_inducing {μ : Method} {fs : List BFdd} (h : ∀ o ∈ ops, (Keep.fits u).Op o) (hR : ∀ d, In d u → Regular G (ops.map (·.at' d)) ∧ Tells (Dead G) N (ops.map (·.at' d)))
    (c1 : Conditioned u ops b m l m1) (c2 : ConditionedU u ops b' m μ fs l m2) (hA : ∀ d, In d u → AtData (fs.map (·.at' d)) (l.map (pairAt d)))
    (hw : ∀ d, In d u → WhiteNoise (l.map (pairAt d))) (hf : ∀ d, In d u → ∀ f ∈ fs, FitsF G (f.at' d)) (hl : ∀ d, In d u → ∀ e ∈ l, FitsV G (pairAt d e))
    (hq : Attached (runOps b {}) m q) (kq : Attached (runOps b' {}) m q) (hq' : Attached (runOps b {}) m q') (kq' : Attached (runOps b' {}) m q')
    (hx : (BInput.num xs).Fits u) (hy : (BInput.num ys).Fits u) (cx : ∀ d, In d u → Rows (G q) (rowsAt xs d)) (cy : ∀ d, In d u → Rows (G q') (rowsAt ys d)) :
    (∀ t t', MeanCall (runOps ops {}) m1 q (.num xs) t → MeanCall (runOps ops {}) m2 q (.num xs) t' →
      ∀ d, In d u → ∀ i < xs.nrows, t.get (0 :: i :: d) = t'.get (0 :: i :: d)) ∧
    ∀ t t', KernelCall (runOps ops {}) m1 q q' (.num xs) (.num ys) t → KernelCall (runOps ops {}) m2 q q' (.num xs) (.num ys) t' →
      ∀ d, In d u → ∀ i < xs.nrows, ∀ j < ys.nrows, t.get (j :: i :: d) = t'.get (j :: i :: d) := by
  have key := fun d hd => C40_regular (hR d hd).1 (hR d hd).2 (c2.at hd) (c1.at hd) (hA d hd) (hw d hd)
    (fun e he => by obtain ⟨e', he', rfl⟩ := List.mem_map.1 he; exact hf d hd e' he') (fun e he => by obtain ⟨e', he', rfl⟩ := List.mem_map.1 he; exact hl d hd e' he')
    (kq.at d) (hq.at d) (kq'.at d) (hq'.at d) (cx d hd) (cy d hd)
  refine ⟨fun t t' e e' d hd => mean_same h hd (hR d hd).1 (c1.attached hd (hR d hd).2 (hl d hd) hq) hx (cx d hd) e e' fun v => ((key d hd).1 v).symm,
    fun t t' e e' d hd => kernel_same h hd (hR d hd).1 (c1.attached hd (hR d hd).2 (hl d hd) hq) (c1.attached hd (hR d hd).2 (hl d hd) hq') hx hy (cx d hd) (cy d hd) e e' ?_⟩
  obtain ⟨A, A', k1, k2, k3⟩ := (key d hd).2
  exact ⟨A', A, k2, k1, k3.symm⟩

/-- **C77, returning.** In regular programs in which all inputs have the batch dimensions `s`: means and kernels of the prior and of all posteriors return for batches of inputs. -/
theorem C77_returns {s : List ℕ} (hs : ∃ d, In d s) (h : ∀ o ∈ ops, (Keep.is s).Op o) (hR : ∀ d, In d s → Regular G (ops.map (·.at' d))) (hq : Attached (runOps ops {}) m q)
    (hq' : Attached (runOps ops {}) m q') (hx : (BInput.num xs).Is s) (hy : (BInput.num ys).Is s) (cx : ∀ d, In d s → Rows (G q) (rowsAt xs d))
    (cy : ∀ d, In d s → Rows (G q') (rowsAt ys d)) : (∃ t, MeanCall (runOps ops {}) m q (.num xs) t ∧ t.shape = 1 :: xs.nrows :: s) ∧
      ∃ t, KernelCall (runOps ops {}) m q q' (.num xs) (.num ys) t ∧ t.shape = ys.nrows :: xs.nrows :: s := by
  obtain ⟨d, hd⟩ := hs
  constructor
  · obtain ⟨t, r, t1, t2, t3⟩ := C72_mean_returns ⟨d, hd⟩ h hx fun d hd => (hR d hd).mean (hq.at d) (cx d hd) |>.imp fun _ h => h.1
    obtain ⟨v, v1, v2, -⟩ := t3 d hd
    obtain ⟨w, w1, w2⟩ := (hR d hd).mean (hq.at d) (cx d hd)
    cases v1.unique w1
    exact ⟨t, t1, by rw [t2, ← v2, w2]; simp⟩
  · obtain ⟨t, r, c, t1, t2, t3⟩ := C72_kernel_returns ⟨d, hd⟩ h hx hy fun d hd => (hR d hd).kernel (hq.at d) (hq'.at d) (cx d hd) (cy d hd) |>.imp fun _ h => h.1
    obtain ⟨v, v1, v2, v3, -⟩ := t3 d hd
    obtain ⟨w, w1, w2, w3⟩ := (hR d hd).kernel (hq.at d) (hq'.at d) (cx d hd) (cy d hd)
    cases v1.unique w1
    exact ⟨t, t1, by rw [t2, ← v2, ← v3, w2, w3]; simp⟩

end Bat

/-! ### Examples -/

namespace Bat.ExampleLaws
open BatchExample ExampleFdd ExampleInfer

/-- Both values. -/
noncomputable def yc : BVals := (combineValues [yf, yg]).get rfl

theorem yc_eq : combineValues [yf, yg] = some yc := (Option.some_get _).symm

theorem yc_whole : Whole yc := fun i hi => by
  by_cases h : i.tail.headD 0 < 1
  · exact (congrArg Option.isSome (if_pos h)).trans rfl
  · exact (congrArg Option.isSome (if_neg h)).trans rfl

/-- The observations of both. -/
noncomputable def both : BObs := .exact 1 (.tup [.fdd 0 z, .fdd 0 x]) nc (yc.uprank.map (·.getD 0))

/-- The observation of `g`. -/
noncomputable def seenG : BObs := .exact 0 x (fillDiag 2 3) (yg.uprank.map (·.getD 0))

/-- The measure is conditioned on both, and on the first and then on the second. -/
noncomputable def full : List BOp := prior ++ [.cross [0, 0] [0], .condition 0 both, .condition 0 seen, .condition 2 seenG, .condition 0 seen]

theorem full_is : ∀ o ∈ full, (Keep.is [2]).Op o := by
  intro o ho
  rcases List.mem_append.1 ho with ho | ho
  · exact is o ho
  · simp only [List.mem_cons, List.not_mem_nil, or_false] at ho
    rcases ho with rfl | rfl | rfl | rfl | rfl
    · trivial
    · exact ⟨⟨by simp, z_is, x_is, trivial⟩, ⟨4, 4, [], rfl, rfl⟩, rfl, rfl⟩
    · exact ⟨z_is, ⟨1, 1, [], rfl, rfl⟩, rfl, rfl⟩
    · exact ⟨x_is, ⟨3, 3, [], rfl, rfl⟩, rfl, rfl⟩
    · exact ⟨z_is, ⟨1, 1, [], rfl, rfl⟩, rfl, rfl⟩

/-- The program at an index. -/
noncomputable def fullAt (d : List ℕ) : List Op := [.newMeasure, .gp (.fn (.const 3)) (.prim k) (some 0) (some "f"), .cross [0, 0] [0], .condition 0 (both.at' d), .condition 0 (seen.at' d),
  .condition 2 (seenG.at' d), .condition 0 (seen.at' d)]

theorem nc_pd (d : List ℕ) : ((nc.toMat d).sq 4).PosDef := by
  have : (nc.toMat d).sq 4 = Matrix.diagonal ![(1 : ℝ), 2, 2, 2] := by
    ext i j
    show (nc.toMat d).e i j = _
    fin_cases i <;> fin_cases j <;> simp [nc, toMat, Ten.get, fillDiag, clip, Mat.blockDiag, Mat.dsum]
  rw [this]
  refine .diagonal fun i => ?_
  fin_cases i <;> simp

theorem fullAt_noisy (d : List ℕ) : Noisy (fullAt d) := by
  intro m obs h
  simp only [fullAt, List.mem_cons, List.not_mem_nil, or_false, reduceCtorEq, false_or, or_false, Op.condition.injEq] at h
  rcases h with ⟨-, rfl⟩ | ⟨-, rfl⟩ | ⟨-, rfl⟩ | ⟨-, rfl⟩
  · exact nc_pd d
  · exact pd_f d
  · exact pd_g d
  · exact pd_f d

/-- The process that consists of more than one process. -/
abbrev isCross (p : PId) : Prop := p = 1

theorem full_regular (d : List ℕ) : Regular (off isCross) (fullAt d) := by
  refine .of_noisy_off ⟨?_, ?_, ?_, fun m obs h => (fullAt_noisy d m obs h).psd, smooth_of (by simp [fullAt])⟩ (fullAt_noisy d)
    (.of_exact (by simp [fullAt, seen, seenG, both, BObs.at']))
  · intro o ho
    simp only [fullAt, List.mem_cons, List.not_mem_nil, or_false] at ho
    rcases ho with rfl | rfl | rfl | rfl | rfl | rfl | rfl
    all_goals first
      | exact ⟨trivial, trivial, k_psd⟩
      | trivial
      | (intro h; cases h)
  · refine splits (ops := fullAt d) (P := fun before o => ∀ m, ∀ e ∈ o.written (Stheno.runOps before {}).gps.length m,
      ¬ isCross e.1 → e.2.TotalOff isCross) ⟨?_, ?_, ?_, ?_, ?_, ?_, ?_, trivial⟩
    all_goals
      intro m e he
      first
        | exact (List.not_mem_nil he).elim
        | have he := List.mem_singleton.1 he
          subst he
          first
            | exact fun _ => ⟨trivial, trivial⟩
            | exact fun h => (h rfl).elim
  · intro before m obs after e hm
    refine splits (ops := fullAt d) (P := fun before o => ∀ m obs, o = .condition m obs → ObsFitsOff isCross before m obs) ⟨?_, ?_, ?_, ?_, ?_, ?_, ?_, trivial⟩
      before _ after e m obs rfl
    all_goals
      intro m obs e
      first
        | (exfalso; cases e; done)
        | cases e
    · refine ⟨rfl, rfl, rfl, .inr ⟨[.newMeasure, .gp (.fn (.const 3)) (.prim k) (some 0) (some "f")], [0, 0], [0], [], rfl, rfl, attached_iff.2 rfl, ⟨_, ?_, rfl, ?_⟩, ?_, ?_⟩⟩
      · exact List.cons_ne_nil _ _
      · intro a ha
        have ha : a ∈ [Input.fdd 0 (z.at' d), .fdd 0 (x.at' d)] := ha
        simp only [List.mem_cons, List.not_mem_nil, or_false] at ha
        rcases ha with rfl | rfl
        · exact ⟨0, by simp, _, rfl⟩
        · exact ⟨0, by simp, _, rfl⟩
      · intro q hq
        simp only [List.mem_cons, List.not_mem_nil, or_false, or_self] at hq
        subst hq
        decide
      · intro i hi hc
        have hi : i ∈ [0, 1] := hi
        simp only [List.mem_cons, List.not_mem_nil, or_false] at hi
        rcases hi with rfl | rfl
        · exact List.mem_singleton.2 rfl
        · exact (hc rfl).elim
    · exact ⟨rfl, rfl, rfl, .inl ⟨⟨_, rfl⟩, attached_iff.2 rfl, by decide⟩⟩
    · exact ⟨rfl, rfl, rfl, .inl ⟨⟨_, rfl⟩, attached_iff.2 rfl, by decide⟩⟩
    · exact ⟨rfl, rfl, rfl, .inl ⟨⟨_, rfl⟩, attached_iff.2 rfl, by decide⟩⟩

theorem full_tells (d : List ℕ) : Tells (Dead (off isCross)) (fun _ => 2) (fullAt d) := by
  rw [dead_off]
  refine splits (ops := fullAt d) (P := fun before o => ∀ m, ∀ e ∈ o.written (Stheno.runOps before {}).gps.length m,
      Sorted isCross e ∧ Counts (fun _ => 2) e) ⟨?_, ?_, ?_, ?_, ?_, ?_, ?_, trivial⟩
  all_goals
    intro m e he
    first
      | exact (List.not_mem_nil he).elim
      | have he := List.mem_singleton.1 he
        subst he
        first
          | exact ⟨⟨fun _ => ⟨trivial, trivial⟩, fun h => nomatch h⟩, trivial⟩
          | exact ⟨⟨fun h => (h rfl).elim, fun _ => ⟨by simp, by decide⟩⟩, rfl⟩

theorem fits_f (d : List ℕ) : FitsV (off isCross) (pairAt d (f, yf)) := ⟨_, rfl, rows_off (by decide : ¬ isCross 0), rfl, rfl, rfl⟩

theorem fits_g (d : List ℕ) : FitsV (off isCross) (pairAt d (g, yg)) := ⟨_, rfl, rows_off (by decide : ¬ isCross 0), rfl, rfl, rfl⟩

theorem att {b : List BOp} {m : MId} (h : ((runOps b {}).ms[m]?.any fun s => s.ps.contains 0) = true) : Attached (runOps b {}) m 0 := by
  cases e : (runOps b {}).ms[m]? with
  | none => simp [e] at h
  | some s => exact ⟨s, e, by simpa [e] using h⟩

/-- The inputs of `g`, and of `f`. -/
def xt : Ten ℝ := ⟨[1, 3, 2], fun i => (i.tail.headD 0 + 5 * i.tail.tail.headD 0 : ℝ)⟩

theorem xt_is : (BInput.num xt).Is [2] := x_is

theorem xt_rows (d : List ℕ) : Rows (off isCross 0) (rowsAt xt d) := rows_off (by decide : ¬ isCross 0)

theorem full_fits : ∀ o ∈ full, (Keep.fits [2]).Op o := fun o ho => Keep.is_fits (full_is o ho)

theorem cond_f (b after : List BOp) (m m1 : MId) (hm : m < (runOps b {}).ms.length) (h1 : m1 + 1 = (runOps (b ++ [.condition m seen]) {}).ms.length) (ha : Attached (runOps b {}) m 0)
    {args : List BArg} (hargs : args = [.fdd f, .vals yf] ∨ args = [.tuple [.fdd f, .vals yf]]) : Conditioned [2] (b ++ .condition m seen :: after) b m [(f, yf)] m1 := by
  have e : observe f yf = some seen := if_pos ⟨rfl, yf_whole⟩
  refine .mk (ord := []) (args := args) (.plain f yf) hargs (os := [.condition m seen]) ?_ ⟨after, by simp⟩ hm h1 (fun e he => by cases List.mem_singleton.1 he; exact ha) ?_
  · rcases hargs with rfl | rfl
    all_goals
      simp only [conditionArgs, mkObs, e]
      rfl
  · rcases hargs with rfl | rfl
    · exact show Fine' [2] [.fdd f, .vals yf] from rfl
    · exact show Fine [2] [.fdd f, .vals yf] from rfl

/-- What is done before `f` is observed. -/
noncomputable def before1 : List BOp := prior ++ [.cross [0, 0] [0], .condition 0 both]

/-- What is done before `f` is observed again. -/
noncomputable def before4 : List BOp := prior ++ [.cross [0, 0] [0], .condition 0 both, .condition 0 seen, .condition 2 seenG]

theorem cond_f1 : Conditioned [2] full before1 0 [(f, yf)] 2 :=
  cond_f before1 [.condition 2 seenG, .condition 0 seen] 0 2 (show 0 < 2 by decide) rfl (att rfl) (.inl rfl)

theorem cond_f4 : Conditioned [2] full before4 0 [(f, yf)] 4 := cond_f before4 [] 0 4 (show 0 < 4 by decide) rfl (att rfl) (.inr rfl)

theorem gives_f : Gives full before1 0 seen 2 := ⟨⟨[.condition 2 seenG, .condition 0 seen], rfl⟩, show 0 < 2 by decide, rfl⟩

theorem cond_g : Conditioned [2] full (prior ++ [.cross [0, 0] [0], .condition 0 both, .condition 0 seen]) 2 [(g, yg)] 3 := by
  have e : observe g yg = some seenG := if_pos ⟨rfl, yg_whole⟩
  refine .mk (ord := []) (.plain g yg) (.inl rfl) (os := [.condition 2 seenG]) ?_ ⟨[.condition 0 seen], rfl⟩ (by decide +revert : 2 < 3) rfl
    (fun e he => by cases List.mem_singleton.1 he; exact att rfl) (show Fine' [2] [.fdd g, .vals yg] from rfl)
  simp only [conditionArgs, mkObs, e]
  rfl

theorem cond_both : Conditioned [2] full prior 0 [(f, yf), (g, yg)] 1 := by
  have eo : observe c yc = some both := if_pos ⟨rfl, yc_whole⟩
  have e' : mkObs (runOps prior {}) [0] [bpair (f, yf), bpair (g, yg)] = some ([.cross [0, 0] [0]], both) := by
    have : mkObs (runOps prior {}) [0] [bpair (f, yf), bpair (g, yg)] = (combine (runOps prior {}) [0] [f, g]).bind fun c =>
      (combineValues [yf, yg]).bind fun t => (observe c.2 t).bind fun o => some ([c.1], o) := rfl
    rw [this, combined, yc_eq]
    show ((observe c yc).bind fun o => some ([BOp.cross [0, 0] [0]], o)) = _
    rw [eo]
    rfl
  have e : conditionArgs (runOps prior {}) [0] 0 [bpair (f, yf), bpair (g, yg)] = some ([.cross [0, 0] [0]] ++ [.condition 0 both]) := by
    have : conditionArgs (runOps prior {}) [0] 0 [bpair (f, yf), bpair (g, yg)] =
      (mkObs (runOps prior {}) [0] [bpair (f, yf), bpair (g, yg)]).bind fun c => some (c.1 ++ [.condition 0 c.2]) := rfl
    rw [this, e']
    rfl
  refine .mk (ord := [0]) (.pairs [(f, yf), (g, yg)]) (.inl rfl) e ⟨[.condition 0 seen, .condition 2 seenG, .condition 0 seen], rfl⟩ (by decide : 0 < 1) rfl (fun e he => ?_) fun l hl => ?_
  · simp only [List.mem_cons, List.not_mem_nil, or_false] at he
    rcases he with rfl | rfl <;> exact att rfl
  · obtain rfl := Option.some.inj (pairs.symm.trans hl)
    refine ⟨fun e he => ?_, wide⟩
    simp only [List.mem_cons, List.not_mem_nil, or_false] at he
    rcases he with rfl | rfl <;> rfl

/-- The covariance matrices of the prior and after observing `f`, at both indices: they are positive semi-definite, and the variances are not larger. -/
example : ∃ t t', KernelCall (runOps full {}) 0 0 0 (.num xt) (.num xt) t ∧ KernelCall (runOps full {}) 2 0 0 (.num xt) (.num xt) t' ∧ t.shape = [3, 3, 2] ∧
    ∀ d, In d [2] → (t'.mat 3 3 d).PosSemidef ∧ ∀ i < 3, t'.get (i :: i :: d) ≤ t.get (i :: i :: d) := by
  have a0 : Attached (runOps full {}) 0 0 := att rfl
  have a2 : Attached (runOps full {}) 2 0 := att rfl
  obtain ⟨t, h1, h2⟩ := (C77_returns batch full_is (fun d _ => full_regular d) a0 a0 xt_is xt_is (fun d _ => xt_rows d) fun d _ => xt_rows d).2
  obtain ⟨t', h1', h2'⟩ := (C77_returns batch full_is (fun d _ => full_regular d) a2 a2 xt_is xt_is (fun d _ => xt_rows d) fun d _ => xt_rows d).2
  obtain ⟨n, c, s1, s2⟩ := C77_variance full_fits gives_f (att rfl) xt_is.fits h1 h1'
  rw [h2] at s1
  cases s1
  exact ⟨t, t', h1, h1', h2, fun d hd => ⟨C77_posSemidef full_fits (fun d _ => full_regular d) a2 xt_is.fits (fun d _ => xt_rows d) h1' d hd, fun i hi => (s2 d hd).2 i hi hi⟩⟩

/-- Means after observing both at once, and after observing one after the other, are the same. -/
example : ∃ t t', MeanCall (runOps full {}) 1 0 (.num xt) t ∧ MeanCall (runOps full {}) 3 0 (.num xt) t' ∧ t.shape = [1, 3, 2] ∧
    ∀ d, In d [2] → ∀ i < 3, t.get (0 :: i :: d) = t'.get (0 :: i :: d) := by
  have a1 : Attached (runOps full {}) 1 0 := att rfl
  have a3 : Attached (runOps full {}) 3 0 := att rfl
  obtain ⟨t, h1, h2⟩ := (C77_returns batch full_is (fun d _ => full_regular d) a1 a1 xt_is xt_is (fun d _ => xt_rows d) fun d _ => xt_rows d).1
  obtain ⟨t', h1', -⟩ := (C77_returns batch full_is (fun d _ => full_regular d) a3 a3 xt_is xt_is (fun d _ => xt_rows d) fun d _ => xt_rows d).1
  refine ⟨t, t', h1, h1', h2, (C77_sequential (l1 := [(f, yf)]) (l2 := [(g, yg)]) (q := 0) (q' := 0) (xs := xt) (ys := xt) full_fits (fun d _ => ⟨full_regular d, full_tells d⟩)
    cond_f1 cond_g cond_both
    (fun d _ e he => by cases List.mem_singleton.1 he; exact fits_f d) (fun d _ e he => by cases List.mem_singleton.1 he; exact fits_g d)
    (fun d _ => ⟨_, List.mem_singleton.2 rfl, ?_⟩) (fun d _ => ⟨_, List.mem_singleton.2 rfl, ?_⟩) (fun e he => by cases List.mem_singleton.1 he; exact att rfl)
    (att rfl) (att rfl) (att rfl) (att rfl) xt_is.fits xt_is.fits (fun d _ => xt_rows d) fun d _ => xt_rows d).1 t t' h1 h1'⟩
  · exact (by decide : 1 ≠ 0)
  · exact (by decide : 3 ≠ 0)

/-- Two notations for the same observation give the same kernels. -/
example : ∃ t t', KernelCall (runOps full {}) 2 0 0 (.num xt) (.num xt) t ∧ KernelCall (runOps full {}) 4 0 0 (.num xt) (.num xt) t' ∧ t.shape = [3, 3, 2] ∧
    ∀ d, In d [2] → ∀ i < 3, ∀ j < 3, t.get (j :: i :: d) = t'.get (j :: i :: d) := by
  have a2 : Attached (runOps full {}) 2 0 := att rfl
  have a4 : Attached (runOps full {}) 4 0 := att rfl
  obtain ⟨t, h1, h2⟩ := (C77_returns batch full_is (fun d _ => full_regular d) a2 a2 xt_is xt_is (fun d _ => xt_rows d) fun d _ => xt_rows d).2
  obtain ⟨t', h1', -⟩ := (C77_returns batch full_is (fun d _ => full_regular d) a4 a4 xt_is xt_is (fun d _ => xt_rows d) fun d _ => xt_rows d).2
  exact ⟨t, t', h1, h1', h2, (C77_same (l := [(f, yf)]) (l' := [(f, yf)]) (q := 0) (q' := 0) (xs := xt) (ys := xt) full_fits (fun d _ => ⟨full_regular d, full_tells d⟩)
    cond_f1 cond_f4
    (fun d _ e he => by cases List.mem_singleton.1 he; exact fits_f d) (fun d _ e he => by cases List.mem_singleton.1 he; exact fits_f d) (fun d _ => .refl _)
    (att rfl) (att rfl) (att rfl) (att rfl) xt_is.fits xt_is.fits (fun d _ => xt_rows d) fun d _ => xt_rows d).2 t t' h1 h1'⟩

/-- The measure is conditioned on `f`, and on pseudo-observations of `f` with inducing points at the data. -/
noncomputable def thin : List BOp := prior ++ [.condition 0 seen, .condition 0 (.pseudo 0 0 (pseudo 0))]

theorem thin_is : ∀ o ∈ thin, (Keep.is [2]).Op o := by
  intro o ho
  rcases List.mem_append.1 ho with ho | ho
  · exact is o ho
  · simp only [List.mem_cons, List.not_mem_nil, or_false] at ho
    rcases ho with rfl | rfl
    · exact ⟨z_is, ⟨1, 1, [], rfl, rfl⟩, rfl, rfl⟩
    · exact pseudo_is 0

/-- The program at an index. -/
noncomputable def thinAt (d : List ℕ) : List Op := [.newMeasure, .gp (.fn (.const 3)) (.prim k) (some 0) (some "f"), .condition 0 (seen.at' d), .condition 0 (.pseudo 0 0 ((pseudo 0).at' d))]

theorem thinAt_noisy (d : List ℕ) : Noisy (thinAt d) := by
  intro m obs h
  simp only [thinAt, List.mem_cons, List.not_mem_nil, or_false, reduceCtorEq, false_or, or_false, Op.condition.injEq] at h
  rcases h with ⟨-, rfl⟩ | ⟨-, rfl⟩
  · exact pd_f d
  · refine ⟨?_, fun j hj => ?_⟩
    · have : ((pseudo 0).at' d).noiseZ.sq (numElements ((pseudo 0).at' d).z) = 0 := by
        ext i j
        show ((fillDiag 0 1).toMat d).e i j = 0
        simp [toMat, Ten.get, fillDiag]
      rw [this]
      exact .zero
    · have hj : j < 1 := hj
      obtain rfl : j = 0 := by omega
      show 0 < ((fillDiag 1 1).toMat d).e 0 0
      simp [toMat, Ten.get, fillDiag, clip]

theorem thin_inducing (d : List ℕ) : Inducing (thinAt d) := by
  intro before m pu p o after e _ A K hA hK
  have hmem : Op.condition m (.pseudo pu p o) ∈ thinAt d := by rw [e]; simp
  obtain ⟨y, hs⟩ : ∃ y, seen.at' d = .exact 0 (z.at' d) ((fillDiag 1 1).toMat d) y := ⟨_, rfl⟩
  simp only [thinAt, hs, List.mem_cons, List.not_mem_nil, or_false, reduceCtorEq, false_or, Op.condition.injEq, Obs.pseudo.injEq, and_false] at hmem
  obtain ⟨rfl, rfl, rfl, rfl⟩ := hmem
  obtain ⟨a, ea⟩ := z_at d
  have hz : ((pseudo 0).at' d).z = .num [a] := ea
  rw [hz] at hA
  have h0 : Stheno.KernelCall (Stheno.runOps ([.newMeasure, .gp (.fn (.const 3)) (.prim k) (some 0) (some "f")] : List Op) {}) 0 0 0 (.num [a]) (.num [a])
      ⟨1, 1, fun i j => k ([a].getD i []) ([a].getD j [])⟩ := ⟨.prim k, 1, rfl, rfl⟩
  cases (C05_kernel_call (later := [.condition 0 (seen.at' d), .condition 0 (.pseudo 0 0 ((pseudo 0).at' d))]) h0).unique hA
  have hK' : some (⟨1, 1, fun i j => k ([a].getD i []) ([a].getD j []) + ((fillDiag 0 1).toMat d).e i j⟩ : Mat) = some K := hK
  cases hK'
  refine pd (A := fun i j => k ([a].getD i []) ([a].getD j []) + ((fillDiag 0 1).toMat d).e i j) (k a a) (by simp only [k]; nlinarith [mul_self_nonneg (a.headD 0)]) ?_
  simp [toMat, Ten.get, fillDiag, clip]

theorem thin_regular (d : List ℕ) : Regular (off fun _ => False) (thinAt d) := by
  refine .of_noisy_off ⟨?_, ?_, ?_, fun m obs h => (thinAt_noisy d m obs h).psd, smooth_of (by simp [thinAt])⟩ (thinAt_noisy d) (thin_inducing d)
  · intro o ho
    simp only [thinAt, List.mem_cons, List.not_mem_nil, or_false] at ho
    rcases ho with rfl | rfl | rfl | rfl
    all_goals first
      | exact ⟨trivial, trivial, k_psd⟩
      | trivial
  · refine splits (ops := thinAt d) (P := fun before o => ∀ m, ∀ e ∈ o.written (Stheno.runOps before {}).gps.length m,
      ¬ False → e.2.TotalOff fun _ => False) ⟨?_, ?_, ?_, ?_, trivial⟩
    all_goals
      intro m e he
      first
        | exact (List.not_mem_nil he).elim
        | have he := List.mem_singleton.1 he
          subst he
          exact fun _ => ⟨trivial, trivial⟩
  · intro before m obs after e hm
    refine splits (ops := thinAt d) (P := fun before o => ∀ m obs, o = .condition m obs → ObsFitsOff (fun _ => False) before m obs) ⟨?_, ?_, ?_, ?_, trivial⟩
      before _ after e m obs rfl
    all_goals
      intro m obs e
      first
        | (exfalso; cases e; done)
        | cases e
    · exact ⟨rfl, rfl, rfl, .inl ⟨⟨_, rfl⟩, attached_iff.2 rfl, not_false⟩⟩
    · exact ⟨rfl, ⟨rfl, rfl, rfl, rfl, rfl⟩, .inl ⟨⟨_, rfl⟩, attached_iff.2 rfl, not_false⟩, .inl ⟨⟨_, rfl⟩, attached_iff.2 rfl, not_false⟩⟩

theorem thin_tells (d : List ℕ) : Tells (Dead (off fun _ => False)) (fun _ => 1) (thinAt d) := by
  rw [dead_off]
  refine splits (ops := thinAt d) (P := fun before o => ∀ m, ∀ e ∈ o.written (Stheno.runOps before {}).gps.length m,
      Sorted (fun _ => False) e ∧ Counts (fun _ => 1) e) ⟨?_, ?_, ?_, ?_, trivial⟩
  all_goals
    intro m e he
    first
      | exact (List.not_mem_nil he).elim
      | have he := List.mem_singleton.1 he
        subst he
        exact ⟨⟨fun _ => ⟨trivial, trivial⟩, fun h => h.elim⟩, trivial⟩

theorem cond_u : ConditionedU [2] thin (prior ++ [.condition 0 seen]) 0 .vfe [ExampleInfer.onto] [(f, yf)] 2 := by
  have e : observe f yf = some (.exact 0 z (fillDiag 1 1) (yf.uprank.map (·.getD 0))) := if_pos ⟨rfl, yf_whole⟩
  have e' : mkPseudo (runOps prior {}) [] [] .vfe true (.one ExampleInfer.onto) [.fdd f, .vals yf] = some ([], .pseudo 0 0 (pseudo 0)) := by
    simp only [mkPseudo, mkU, mkObs, e, Option.bind_eq_bind, Option.bind_some]
    rfl
  exact .mk (.one _) (.plain f yf) e' ⟨[.condition 0 seen], rfl⟩ ⟨⟨[], rfl⟩, show 0 < 2 by decide, rfl⟩ ⟨trivial, show Fine [2] [.fdd f, .vals yf] from rfl⟩
    (fun f hf => by cases List.mem_singleton.1 hf; exact att rfl) fun e he => by cases List.mem_singleton.1 he; exact att rfl

/-- With inducing points at the data the means are those given the data. -/
example : ∃ t t', MeanCall (runOps thin {}) 1 0 (.num xt) t ∧ MeanCall (runOps thin {}) 2 0 (.num xt) t' ∧ t.shape = [1, 3, 2] ∧
    ∀ d, In d [2] → ∀ i < 3, t.get (0 :: i :: d) = t'.get (0 :: i :: d) := by
  have a1 : Attached (runOps thin {}) 1 0 := att rfl
  have a2 : Attached (runOps thin {}) 2 0 := att rfl
  have rows : ∀ d, Rows (off (fun _ => False) 0) (rowsAt xt d) := fun d => rows_off not_false
  obtain ⟨t, h1, h2⟩ := (C77_returns batch thin_is (fun d _ => thin_regular d) a1 a1 xt_is xt_is (fun d _ => rows d) fun d _ => rows d).1
  obtain ⟨t', h1', -⟩ := (C77_returns batch thin_is (fun d _ => thin_regular d) a2 a2 xt_is xt_is (fun d _ => rows d) fun d _ => rows d).1
  refine ⟨t, t', h1, h1', h2, (C77_inducing (l := [(f, yf)]) (q := 0) (q' := 0) (xs := xt) (ys := xt) (fun o ho => Keep.is_fits (thin_is o ho)) (fun d _ => ⟨thin_regular d, thin_tells d⟩)
    (cond_f prior [.condition 0 (.pseudo 0 0 (pseudo 0))] 0 1 (show 0 < 1 by decide) rfl (att rfl) (.inl rfl)) cond_u (fun d _ => ⟨rfl, fun f hf i hi j hj => ?_⟩) (fun d _ e he => ?_)
    (fun d _ f hf => ?_) (fun d _ e he => ?_) (att rfl) (att rfl) (att rfl) (att rfl) xt_is.fits xt_is.fits (fun d _ => rows d) fun d _ => rows d).1 t t' h1 h1'⟩
  · cases List.mem_singleton.1 hf
    show ((fillDiag 0 1).toMat d).e i j = 0
    simp [toMat, Ten.get, fillDiag]
  · cases List.mem_singleton.1 he
    refine ⟨diag_f d 1, fun i hi => ?_⟩
    have hi : i < 1 := hi
    obtain rfl : i = 0 := by omega
    show 0 < ((fillDiag 1 1).toMat d).e 0 0
    simp [toMat, Ten.get, fillDiag, clip]
  · cases List.mem_singleton.1 hf
    exact ExampleInfer.fits_f d 0
  · cases List.mem_singleton.1 he
    exact fits_v d

end Bat.ExampleLaws

end Stheno
