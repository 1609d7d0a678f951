import Verif.Moments
import Verif.Product
import Verif.Props.Conditional
import Verif.Props.Notation

/-!
# C14: Products are moment matched
-/

namespace Stheno

open MeasureTheory ProbabilityTheory

/-- Only processes in a measure have a mean in it. -/
theorem attached_of_meanAt {ops : List Op} {m : MId} {p : PId} {a : MExpr} (h : meanAt (runOps ops {}) m p = some a) :
    Attached (runOps ops {}) m p := by
  have iv := Inv.reach ops
  rw [iv.meanAt] at h
  cases hb : (specOps ops {}).ms[m]? with
  | none => simp [AWorld.mean, specMAux, hb] at h
  | some b =>
    rw [mean_eq (fun m a h => (iv.wf.ms m a h).base_lt) hb] at h
    refine iv.attached.2 ⟨b, hb, ?_⟩
    rw [AMeas.ps, mem_knownOf]
    generalize b.defs = es at h
    induction es with
    | nil =>
      simp only [lookMDefs] at h
      split at h
      · exact .inl ‹_›
      · cases h
    | cons e es ih =>
      obtain ⟨q, d⟩ := e
      simp only [lookMDefs] at h
      split at h
      · subst_vars; exact .inr (by simp)
      · exact (ih h).imp id fun h => by simp [h]

section
variable {Ω : Type*} [MeasurableSpace Ω] {P : Measure Ω} {Φ : PId × Input × ℕ → Ω → ℝ} {T : PId → Input → Prop}
variable {ops before : List Op} {m : MId} {p q r s : PId} {x y : Input} {ord : List MId}

/-- What `Models` says about tables, after the program was extended. -/
theorem Models.tableM {after : List Op} (h : Models P (runOps before {}) m T (fun _ x => numElements x) Φ) (hx : T p x) :
    TableM (runOps (before ++ after) {}) m (· = x) p fun x i => ∫ ω, Φ (p, x, i) ω ∂P := by
  obtain ⟨v, hv, lv, ev⟩ := h.mean p x hx
  obtain ⟨a, n, ha, hv⟩ := C05_mean_call (later := after) hv
  refine ⟨a, ha, ?_⟩
  rintro _ rfl
  exact ⟨v, ⟨n, hv⟩, lv, fun i hi => (ev i hi).symm⟩

theorem Models.tableK {after : List Op} (h : Models P (runOps before {}) m T (fun _ x => numElements x) Φ) (hx : T p x) (hy : T q y) :
    TableK (runOps (before ++ after) {}) m (· = x) (· = y) p q fun x y i j => cov[Φ (p, x, i), Φ (q, y, j); P] := by
  obtain ⟨A, hA, hr, hc, e⟩ := h.cov p x q y hx hy
  obtain ⟨a, n, ha, hA⟩ := C05_kernel_call (later := after) hA
  refine ⟨a, ha, ?_⟩
  rintro _ _ rfl rfl
  exact ⟨A, ⟨n, hA⟩, hr, hc, fun i hi j hj => (e i hi j hj).symm⟩

theorem Models.attached (h : Models P (runOps before {}) m T (fun _ x => numElements x) Φ) (hx : T p x) : Attached (runOps before {}) m p := by
  obtain ⟨v, ⟨a, _, ha, _⟩, _⟩ := h.mean p x hx
  exact attached_of_meanAt ha

theorem Models.products (h : Models P (runOps before {}) m T (fun _ x => numElements x) Φ) (t : Fin 4 → PId × Input × ℕ) :
    HasGaussianLaw (fun ω i => Φ (t i) ω) P := process_vector h.gaussian t

/-- **C14.** Let `Φ` be any Gaussian process with the means and covariances of the model. The mean of `p * q` is the product of the means of
`p` and `q`, and its kernel is the covariance of the pointwise products; and these calls return. -/
theorem C14_moments (h : Models P (runOps before {}) m T (fun _ x => numElements x) Φ) (hm : Runs ops before (.mul p q ord) r)
    (hat : Attached (runOps (before ++ [.mul p q ord]) {}) m r) (hx : x.IsAtom) (hy : y.IsAtom) (hpx : T p x) (hqx : T q x) (hpy : T p y)
    (hqy : T q y) :
    (∃ v, MeanCall (runOps ops {}) m r x v ∧ v.length = numElements x ∧
      ∀ i < numElements x, v.getD i 0 = (∫ ω, Φ (p, x, i) ω ∂P) * ∫ ω, Φ (q, x, i) ω ∂P) ∧
    ∃ A, KernelCall (runOps ops {}) m r r x y A ∧ A.r = numElements x ∧ A.c = numElements y ∧
      ∀ i < numElements x, ∀ j < numElements y,
        A.e i j = cov[fun ω => Φ (p, x, i) ω * Φ (q, x, i) ω, fun ω => Φ (p, y, j) ω * Φ (q, y, j) ω; P] := by
  obtain ⟨after, rfl⟩ := hm.split
  constructor
  · obtain ⟨a, ha, hv⟩ := product_mean rfl hm.id hat (h.tableM hpx) (h.tableM hqx)
    obtain ⟨v, ⟨n, hv⟩, lv, e⟩ := hv x rfl
    exact ⟨v, ⟨a, n, ha, hv⟩, lv, e⟩
  · obtain ⟨k, hk, hA⟩ := product_kernel (T := (· = x)) (U := (· = y)) (fun _ e => e ▸ hx) (fun _ e => e ▸ hy) rfl hm.id hat (h.attached hpx)
      (h.tableM hpx) (h.tableM hqx) (h.tableM hpy) (h.tableM hqy) (h.tableK hpx hpy) (h.tableK hpx hqy) (h.tableK hqx hpy) (h.tableK hqx hqy)
      (h.tableK hqy hpx)
    obtain ⟨A, ⟨n, hA⟩, hr, hc, e⟩ := hA x y rfl rfl
    refine ⟨A, ⟨k, n, hk, hA⟩, hr, hc, fun i hi j hj => ?_⟩
    have := (cov_products (h.products ![(p, x, i), (q, x, i), (p, y, j), (q, y, j)])).2.2
    simp only [Matrix.cons_val] at this
    rw [e i hi j hj, this]
    beta_reduce
    rw [covariance_comm (X := Φ (q, y, j)) (Y := Φ (p, x, i))]
    ring

/-- **C14.** The kernels between `p * q` and an earlier process are the covariances of the pointwise product with that process. -/
theorem C14_cross (h : Models P (runOps before {}) m T (fun _ x => numElements x) Φ) (hm : Runs ops before (.mul p q ord) r)
    (hat : Attached (runOps (before ++ [.mul p q ord]) {}) m r) (hx : x.IsAtom) (hy : y.IsAtom) (hpx : T p x) (hqx : T q x) (hsy : T s y) :
    (∃ A, KernelCall (runOps ops {}) m r s x y A ∧ A.r = numElements x ∧ A.c = numElements y ∧
      ∀ i < numElements x, ∀ j < numElements y, A.e i j = cov[fun ω => Φ (p, x, i) ω * Φ (q, x, i) ω, Φ (s, y, j); P]) ∧
    ∃ A, KernelCall (runOps ops {}) m s r y x A ∧ A.r = numElements y ∧ A.c = numElements x ∧
      ∀ j < numElements y, ∀ i < numElements x, A.e j i = cov[fun ω => Φ (p, x, i) ω * Φ (q, x, i) ω, Φ (s, y, j); P] := by
  obtain ⟨after, rfl⟩ := hm.split
  have key : ∀ i j, cov[fun ω => Φ (p, x, i) ω * Φ (q, x, i) ω, Φ (s, y, j); P] = (∫ ω, Φ (p, x, i) ω ∂P) * cov[Φ (q, x, i), Φ (s, y, j); P] +
      (∫ ω, Φ (q, x, i) ω ∂P) * cov[Φ (p, x, i), Φ (s, y, j); P] := fun i j => by
    have := (cov_products (h.products ![(p, x, i), (q, x, i), (s, y, j), (s, y, j)])).2.1
    simpa only [Matrix.cons_val] using this
  obtain ⟨⟨k, hk, hA⟩, k', hk', hB⟩ := product_cross (T := (· = x)) (U := (· = y)) (fun _ e => e ▸ hx) (fun _ e => e ▸ hy) rfl hm.id hat
    (h.attached hsy) (h.tableM hpx) (h.tableM hqx) (h.tableK hpx hsy) (h.tableK hqx hsy)
  constructor
  · obtain ⟨A, ⟨n, hA⟩, hr, hc, e⟩ := hA x y rfl rfl
    exact ⟨A, ⟨k, n, hk, hA⟩, hr, hc, fun i hi j hj => by rw [e i hi j hj, key]⟩
  · obtain ⟨A, ⟨n, hA⟩, hr, hc, e⟩ := hB y x rfl rfl
    exact ⟨A, ⟨k', n, hk', hA⟩, hr, hc, fun j hj i hi => by rw [e j hj i hi, key]⟩

/-- **C14.** The mean of `p * q` is not the expectation of the pointwise product: the covariance of `p` and `q` is missing. -/
theorem C14_mean_bias (h : Models P (runOps before {}) m T (fun _ x => numElements x) Φ) (hm : Runs ops before (.mul p q ord) r)
    (hat : Attached (runOps (before ++ [.mul p q ord]) {}) m r) (hx : x.IsAtom) (hpx : T p x) (hqx : T q x) {v : List ℝ}
    (hv : MeanCall (runOps ops {}) m r x v) {i : ℕ} (hi : i < numElements x) :
    ∫ ω, Φ (p, x, i) ω * Φ (q, x, i) ω ∂P = v.getD i 0 + cov[Φ (p, x, i), Φ (q, x, i); P] := by
  obtain ⟨⟨v', hv', _, e⟩, _⟩ := C14_moments h hm hat hx hx hpx hqx hpx hqx
  cases hv.unique hv'
  rw [e i hi]
  have := (cov_products (h.products ![(p, x, i), (q, x, i), (p, x, i), (q, x, i)])).1
  simpa only [Matrix.cons_val] using this

/-- **C14.** The product of the same processes taken twice gives two processes which are not the same: their covariance lacks the part of
the covariance of the pointwise products that is quadratic in kernels. -/
theorem C14_twice {before' : List Op} {r' : PId} {ord' : List MId} (h : Models P (runOps before {}) m T (fun _ x => numElements x) Φ)
    (hm : Runs ops before (.mul p q ord) r) (hat : Attached (runOps (before ++ [.mul p q ord]) {}) m r)
    (hm' : Runs ops before' (.mul p q ord') r') (hat' : Attached (runOps (before' ++ [.mul p q ord']) {}) m r')
    (hl : before ++ [.mul p q ord] <+: before') (hx : x.IsAtom) (hy : y.IsAtom) (hpx : T p x) (hqx : T q x) (hpy : T p y) (hqy : T q y) :
    ∃ A, KernelCall (runOps ops {}) m r' r x y A ∧ A.r = numElements x ∧ A.c = numElements y ∧
      ∀ i < numElements x, ∀ j < numElements y,
        cov[fun ω => Φ (p, x, i) ω * Φ (q, x, i) ω, fun ω => Φ (p, y, j) ω * Φ (q, y, j) ω; P] = A.e i j +
          cov[Φ (p, x, i), Φ (p, y, j); P] * cov[Φ (q, x, i), Φ (q, y, j); P] +
          cov[Φ (p, x, i), Φ (q, y, j); P] * cov[Φ (q, x, i), Φ (p, y, j); P] := by
  obtain ⟨mid, rfl⟩ := hl
  obtain ⟨after, rfl⟩ := hm'.split
  have e1 : before ++ [.mul p q ord] ++ mid ++ .mul p q ord' :: after = before ++ .mul p q ord :: (mid ++ .mul p q ord' :: after) := by simp
  have hr : Attached (runOps (before ++ [.mul p q ord] ++ mid) {}) m r := attached_pre hat (List.prefix_append _ _)
  have kp := (product_cross (T := (· = y)) (U := (· = x)) (s := p) (fun _ e => e ▸ hy) (fun _ e => e ▸ hx) e1 hm.id hat (h.attached hpx)
    (e1 ▸ h.tableM hpy) (e1 ▸ h.tableM hqy) (e1 ▸ h.tableK hpy hpx) (e1 ▸ h.tableK hqy hpx)).2
  have kq := (product_cross (T := (· = y)) (U := (· = x)) (s := q) (fun _ e => e ▸ hy) (fun _ e => e ▸ hx) e1 hm.id hat (h.attached hqx)
    (e1 ▸ h.tableM hpy) (e1 ▸ h.tableM hqy) (e1 ▸ h.tableK hpy hqx) (e1 ▸ h.tableK hqy hqx)).2
  obtain ⟨k, hk, hA⟩ := (product_cross (T := (· = x)) (U := (· = y)) (s := r) (fun _ e => e ▸ hx) (fun _ e => e ▸ hy) rfl hm'.id hat' hr
    (e1 ▸ h.tableM hpx) (e1 ▸ h.tableM hqx) kp kq).1
  obtain ⟨A, ⟨n, hA⟩, hr, hc, e⟩ := hA x y rfl rfl
  refine ⟨A, ⟨k, n, hk, hA⟩, hr, hc, fun i hi j hj => ?_⟩
  have := (cov_products (h.products ![(p, x, i), (q, x, i), (p, y, j), (q, y, j)])).2.2
  simp only [Matrix.cons_val] at this
  rw [e i hi j hj, this]
  simp only [covariance_comm (X := Φ (_, y, j)) (Y := Φ (_, x, i))]
  ring

end

/-- `study`, followed by the product of processes 0 and 2, which are correlated, taken twice. -/
noncomputable def twofold : List Op := study ++ [.mul 0 2 [0, 1, 2], .mul 0 2 [2, 0, 1]]

theorem twofold_runs : Runs twofold study (.mul 0 2 [0, 1, 2]) 17 := ⟨⟨_, rfl⟩, by decide +kernel, 1, attached_iff.2 (by decide +kernel)⟩

theorem twofold_runs' : Runs twofold (study ++ [.mul 0 2 [0, 1, 2]]) (.mul 0 2 [2, 0, 1]) 30 :=
  ⟨⟨[], rfl⟩, by decide +kernel, 1, attached_iff.2 (by decide +kernel)⟩

/-- In the first posterior of `study`, at any points: there is a Gaussian process with its means and covariances; kernels of the product of
processes 0 and 2, and with process 3, are covariances of products; the mean is not; and the second product is another process. -/
example (xs ys : List Pt) : ∃ (k : ℕ) (P : Measure (EuclideanSpace ℝ (Fin k) × EuclideanSpace ℝ (Fin 0))) (Φ : PId × Input × ℕ → _ → ℝ) (A B C : Mat)
    (v : List ℝ), KernelCall (runOps twofold {}) 1 17 17 (.num xs) (.num ys) A ∧ KernelCall (runOps twofold {}) 1 17 3 (.num xs) (.num ys) B ∧
      KernelCall (runOps twofold {}) 1 30 17 (.num xs) (.num ys) C ∧ MeanCall (runOps twofold {}) 1 17 (.num xs) v ∧
      ∀ i < xs.length, ∀ j < ys.length,
        A.e i j = cov[fun ω => Φ (0, .num xs, i) ω * Φ (2, .num xs, i) ω, fun ω => Φ (0, .num ys, j) ω * Φ (2, .num ys, j) ω; P] ∧
        B.e i j = cov[fun ω => Φ (0, .num xs, i) ω * Φ (2, .num xs, i) ω, Φ (3, .num ys, j); P] ∧
        A.e i j = C.e i j + cov[Φ (0, .num xs, i), Φ (0, .num ys, j); P] * cov[Φ (2, .num xs, i), Φ (2, .num ys, j); P] +
          cov[Φ (0, .num xs, i), Φ (2, .num ys, j); P] * cov[Φ (2, .num xs, i), Φ (0, .num ys, j); P] ∧
        ∫ ω, Φ (0, .num xs, i) ω * Φ (2, .num xs, i) ω ∂P = v.getD i 0 + cov[Φ (0, .num xs, i), Φ (2, .num xs, i); P] := by
  have hl : ∀ e ∈ [((0 : PId), xs), (2, xs), (0, ys), (2, ys), (3, ys)], Attached (runOps study {}) 1 e.1 ∧ Rows (off (· = 4) e.1) e.2 := by
    have hr : ∀ {p : PId} {zs : List Pt}, ¬ p = 4 → Rows (off (· = 4) p) zs := fun h => rows_off h
    have ha : Attached (runOps study {}) 1 0 ∧ Attached (runOps study {}) 1 2 ∧ Attached (runOps study {}) 1 3 :=
      ⟨attached_iff.2 (by decide +kernel), attached_iff.2 (by decide +kernel), attached_iff.2 (by decide +kernel)⟩
    simp [ha, hr]
  obtain ⟨k, P, Φ, N, hM, _⟩ := C17_exists study_regular _ hl
    (noise := (1 : Matrix (Fin 0) (Fin 0) ℝ)) Matrix.PosSemidef.one
  have h0x : ∃ zs, Input.num xs = .num zs ∧ ((0 : PId), zs) ∈ [((0 : PId), xs), (2, xs), (0, ys), (2, ys), (3, ys)] := ⟨_, rfl, by simp⟩
  have h2x : ∃ zs, Input.num xs = .num zs ∧ ((2 : PId), zs) ∈ [((0 : PId), xs), (2, xs), (0, ys), (2, ys), (3, ys)] := ⟨_, rfl, by simp⟩
  have h0y : ∃ zs, Input.num ys = .num zs ∧ ((0 : PId), zs) ∈ [((0 : PId), xs), (2, xs), (0, ys), (2, ys), (3, ys)] := ⟨_, rfl, by simp⟩
  have h2y : ∃ zs, Input.num ys = .num zs ∧ ((2 : PId), zs) ∈ [((0 : PId), xs), (2, xs), (0, ys), (2, ys), (3, ys)] := ⟨_, rfl, by simp⟩
  have h3y : ∃ zs, Input.num ys = .num zs ∧ ((3 : PId), zs) ∈ [((0 : PId), xs), (2, xs), (0, ys), (2, ys), (3, ys)] := ⟨_, rfl, by simp⟩
  have hat : Attached (runOps (study ++ [.mul 0 2 [0, 1, 2]]) {}) 1 17 := attached_iff.2 (by decide +kernel)
  have hat' : Attached (runOps (study ++ [.mul 0 2 [0, 1, 2]] ++ [.mul 0 2 [2, 0, 1]]) {}) 1 30 := attached_iff.2 (by decide +kernel)
  obtain ⟨⟨v, hv, _⟩, A, hA, _, _, eA⟩ := C14_moments hM twofold_runs hat (x := .num xs) (y := .num ys) trivial trivial h0x h2x h0y h2y
  obtain ⟨⟨B, hB, _, _, eB⟩, _⟩ := C14_cross hM twofold_runs hat (x := .num xs) (y := .num ys) trivial trivial h0x h2x h3y
  obtain ⟨C, hC, _, _, eC⟩ := C14_twice hM twofold_runs hat twofold_runs' hat' (List.prefix_rfl) (x := .num xs) (y := .num ys) trivial trivial
    h0x h2x h0y h2y
  exact ⟨k, P, Φ, A, B, C, v, hA, hB, hC, hv, fun i hi j hj => ⟨eA i hi j hj, eB i hi j hj, (eA i hi j hj).trans (eC i hi j hj),
    C14_mean_bias hM twofold_runs hat (x := .num xs) trivial h0x h2x hv hi⟩⟩

end Stheno
