import Verif.Study

/-!
# Means are expectations and kernels are covariances: C06, C07, C08, C10, C11

Every property comes in two forms. One is about any reading (`Interp.Reads`) of any program, at any input: random
functions that satisfy the equations the user wrote. The other is about the results of calls only, for the programs
(`Regular`) for which it is shown that such random functions exist and all calls return.
-/

namespace Stheno

open Matrix

set_option maxRecDepth 4000

section
variable {V : Type} [AddCommGroup V] [Module ℝ V] {I : Interp V} {ops before : List Op} {G : Dom} {m : MId}
  {p q r s : PId} {x y : Input} {vs ws : List V} {ord : List MId} {xs ys : List Pt}

/-! ## C06 -/

/-- **C06.** In any reading of any program, at any input, in any measure: `measure.means[p](x)` is not longer than
the list of random variables that `p` is at `x`, and if it is as long then it is the list of their expectations. -/
theorem C06_reading (h : I.Reads ops) {v : List ℝ} (hv : MeanCall (runOps ops {}) m p x v)
    (hp : I.F m p x = some vs) : v.length ≤ vs.length ∧ (v.length = vs.length → v = vs.map (I.S m).E) :=
  h.mean hv hp

/-- **C06.** A program of elementary operations in which covariance matrices of observations are positive definite has
a reading, and all calls of means of its single-output processes at numeric inputs return the expectations, in all
measures, also in stacks of posteriors. `G p` are the rows at which `p` can be called, such as those with a feature with
respect to which a process is differentiated. -/
theorem C06_regular (h : Regular G ops) : ∃ I : Interp RV, I.Reads ops ∧
    ∀ m p, Attached (runOps ops {}) m p → ∀ xs, Rows (G p) xs → ∃ vs, I.F m p (.num xs) = some vs ∧ vs.length = xs.length ∧
      MeanCall (runOps ops {}) m p (.num xs) (vs.map (I.S m).E) := by
  refine ⟨reading ops, h.reads, fun m p hp xs hx => ?_⟩
  obtain ⟨vs, hF, lF⟩ := h.value hp hx
  obtain ⟨v, hv, _⟩ := h.mean hp hx
  exact ⟨vs, hF, lF, h.mean_eq hp hx hv hF ▸ hv⟩

/-- In the stack of posteriors of `study`, at any inputs. -/
example (xs : List Pt) : ∃ v, MeanCall (runOps study {}) 2 8 (.num xs) v ∧ v.length = xs.length := by
  obtain ⟨I, _, h⟩ := C06_regular study_regular
  obtain ⟨vs, _, lv, hv⟩ := h 2 8 (attached_iff.2 rfl) xs (rows_off (by decide))
  exact ⟨_, hv, by simpa using lv⟩

/-! ## C07 -/

/-- **C07.** In any reading of any program, at any inputs, in any measure: `measure.kernels[p, q](x, y)` is not
larger than the matrix of covariances of `p` at `x` and `q` at `y`, and if it has the same shape it is that matrix. -/
theorem C07_reading (h : I.Reads ops) {A : Mat} (hA : KernelCall (runOps ops {}) m p q x y A)
    (hp : I.F m p x = some vs) (hq : I.F m q y = some ws) :
    A.r ≤ vs.length ∧ A.c ≤ ws.length ∧ (A.r = vs.length → A.c = ws.length →
      ∀ i < vs.length, ∀ j < ws.length, A.e i j = (I.S m).C (vs.getD i 0) (ws.getD j 0)) :=
  let hf := h.kernel hA hp hq
  ⟨hf.r, hf.c, hf.e⟩

/-- **C07.** The same for elementwise evaluation. -/
theorem C07_elwise (h : I.Reads ops) {u : List ℝ} (hu : ElwiseCall (runOps ops {}) m p q x y u)
    (hp : I.F m p x = some vs) (hq : I.F m q y = some ws) (h1 : u.length = vs.length) (h2 : u.length = ws.length) :
    ∀ i < vs.length, u[i]? = some ((I.S m).C (vs.getD i 0) (ws.getD i 0)) :=
  (h.elwise hu hp hq).e h1 h2

/-- **C07.** A program of elementary operations in which covariance matrices of observations are positive definite has
a reading, and all calls of kernels of its single-output processes at numeric inputs return the covariances, in all
measures, also in stacks of posteriors. `G p` are the rows at which `p` can be called, such as those with a feature with
respect to which a process is differentiated. -/
theorem C07_regular (h : Regular G ops) : ∃ I : Interp RV, I.Reads ops ∧
    ∀ m p q, Attached (runOps ops {}) m p → Attached (runOps ops {}) m q → ∀ xs ys, Rows (G p) xs → Rows (G q) ys → ∃ vs ws A,
      I.F m p (.num xs) = some vs ∧ I.F m q (.num ys) = some ws ∧
      KernelCall (runOps ops {}) m p q (.num xs) (.num ys) A ∧ A.r = xs.length ∧ A.c = ys.length ∧
      ∀ i < xs.length, ∀ j < ys.length, A.e i j = (I.S m).C (vs.getD i 0) (ws.getD j 0) := by
  refine ⟨reading ops, h.reads, fun m p q hp hq xs ys hx hy => ?_⟩
  obtain ⟨vs, hF, lF⟩ := h.value hp hx
  obtain ⟨ws, hG, lG⟩ := h.value hq hy
  obtain ⟨A, hA, rA, cA⟩ := h.kernel hp hq hx hy
  refine ⟨vs, ws, A, hF, hG, hA, rA, cA, fun i hi j hj => ?_⟩
  exact (h.kernel_eq hp hq hx hy hA hF hG).e i (hi.trans_eq lF.symm) j (hj.trans_eq lG.symm)

example (xs ys : List Pt) : ∃ A, KernelCall (runOps study {}) 2 8 3 (.num xs) (.num ys) A ∧ A.r = xs.length ∧
    A.c = ys.length := by
  obtain ⟨I, _, h⟩ := C07_regular study_regular
  obtain ⟨vs, ws, A, _, _, hA, h1, h2, _⟩ := h 2 8 3 (attached_iff.2 rfl) (attached_iff.2 rfl) xs ys
    (rows_off (by decide)) (rows_off (by decide))
  exact ⟨A, hA, h1, h2⟩

/-! ## C08 -/

/-- **C08.** In any reading of any program, at any inputs, in any measure: kernels of the right shape are
transposes of each other. -/
theorem C08_reading (h : I.Reads ops) {A B : Mat} (hA : KernelCall (runOps ops {}) m p q x y A)
    (hB : KernelCall (runOps ops {}) m q p y x B) (hp : I.F m p x = some vs) (hq : I.F m q y = some ws)
    (rA : A.r = vs.length) (cA : A.c = ws.length) (rB : B.r = ws.length) (cB : B.c = vs.length) :
    ∀ i < A.r, ∀ j < A.c, A.e i j = B.e j i := by
  intro i hi j hj
  rw [rA] at hi
  rw [cA] at hj
  rw [(C07_reading h hA hp hq).2.2 rA cA i hi j hj, (C07_reading h hB hq hp).2.2 rB cB j hj i hi]
  exact (I.S m).symm _ _

/-- **C08.** For regular programs, `measure.kernels[p, q](x, y)` and `measure.kernels[q, p](y, x)` are transposes of
each other. -/
theorem C08_regular (h : Regular G ops) (hp : Attached (runOps ops {}) m p)
    (hq : Attached (runOps ops {}) m q) (hx : Rows (G p) xs) (hy : Rows (G q) ys) {A B : Mat}
    (hA : KernelCall (runOps ops {}) m p q (.num xs) (.num ys) A)
    (hB : KernelCall (runOps ops {}) m q p (.num ys) (.num xs) B) :
    A.r = B.c ∧ A.c = B.r ∧ ∀ i < A.r, ∀ j < A.c, A.e i j = B.e j i := by
  obtain ⟨vs, hF, lF⟩ := h.value hp hx
  obtain ⟨ws, hG, lG⟩ := h.value hq hy
  have ha := h.kernel_eq hp hq hx hy hA hF hG
  have hb := h.kernel_eq hq hp hy hx hB hG hF
  exact ⟨ha.r.trans hb.c.symm, ha.c.trans hb.r.symm, C08_reading h.reads hA hB hF hG ha.r ha.c hb.r hb.c⟩

example (xs ys : List Pt) {A B : Mat} (hA : KernelCall (runOps study {}) 2 8 3 (.num xs) (.num ys) A)
    (hB : KernelCall (runOps study {}) 2 3 8 (.num ys) (.num xs) B) : ∀ i < A.r, ∀ j < A.c, A.e i j = B.e j i :=
  (C08_regular study_regular (attached_iff.2 rfl) (attached_iff.2 rfl) (rows_off (by decide)) (rows_off (by decide)) hA hB).2.2

/-! ## C10 -/

/-- A process in measure `m` whose values at `xs` are `vs`: what calls return. -/
theorem Regular.calls (h : Regular G ops) (hr : Attached (runOps ops {}) m r) (hx : Rows (G r) xs) {vs : List RV}
    (hF : (reading ops).F m r (.num xs) = some vs) :
    (∀ v, MeanCall (runOps ops {}) m r (.num xs) v → v = vs.map ((reading ops).S m).E) ∧
    ∀ s, Attached (runOps ops {}) m s → ∀ ys, Rows (G s) ys → ∀ A, KernelCall (runOps ops {}) m r s (.num xs) (.num ys) A →
      ∃ ws, (reading ops).F m s (.num ys) = some ws ∧ ∀ i < xs.length, ∀ j < ys.length,
        A.e i j = ((reading ops).S m).C (vs.getD i 0) (ws.getD j 0) := by
  refine ⟨fun v hv => h.mean_eq hr hx hv hF, fun s hs ys hy A hA => ?_⟩
  obtain ⟨ws, hG, lG⟩ := h.value hs hy
  obtain ⟨vs', hF', lF⟩ := h.value hr hx
  rw [hF] at hF'; cases hF'
  exact ⟨ws, hG, fun i hi j hj => (h.kernel_eq hr hs hx hy hA hF hG).e i (hi.trans_eq lF.symm) j (hj.trans_eq lG.symm)⟩

theorem getD_zipWith {α β γ : Type} (f : α → β → γ) (as : List α) (bs : List β) (a : α) (b : β) (c : γ) {i : ℕ}
    (ha : i < as.length) (hb : i < bs.length) : (List.zipWith f as bs).getD i c = f (as.getD i a) (bs.getD i b) := by
  simp [ha, hb]

theorem getD_map {α β : Type} (f : α → β) (as : List α) (a : α) (b : β) {i : ℕ} (ha : i < as.length) :
    (as.map f).getD i b = f (as.getD i a) := by
  simp [ha]

/-- **C10.** `p + q` has the mean and covariances, with any process, of the pointwise sum, in every measure it is in. -/
theorem C10_sum (h : Regular G ops) (hm : Runs ops before (.add p q ord) r) (hr : Attached (runOps ops {}) m r) :
    (∀ xs, Rows (G r) xs → ∀ v a b, MeanCall (runOps ops {}) m r (.num xs) v → MeanCall (runOps ops {}) m p (.num xs) a →
      MeanCall (runOps ops {}) m q (.num xs) b → v = List.zipWith (· + ·) a b) ∧
    ∀ s, Attached (runOps ops {}) m s → ∀ xs ys, Rows (G r) xs → Rows (G s) ys → ∀ A B D,
      KernelCall (runOps ops {}) m r s (.num xs) (.num ys) A → KernelCall (runOps ops {}) m p s (.num xs) (.num ys) B →
      KernelCall (runOps ops {}) m q s (.num xs) (.num ys) D →
      ∀ i < xs.length, ∀ j < ys.length, A.e i j = B.e i j + D.e i j := by
  have hm := hm.of (d := .sum p q) rfl
  have hT := fun cr => h.def_total hm cr
  have hp := h.reads.refs hr hm p (by simp [ProcDef.refs])
  have hq := h.reads.refs hr hm q (by simp [ProcDef.refs])
  have hF : ∀ xs : List Pt, Rows (G r) xs → ∃ vs ws, (reading ops).F m p (.num xs) = some vs ∧ (reading ops).F m q (.num xs) = some ws ∧
      vs.length = xs.length ∧ ws.length = xs.length ∧
      (reading ops).F m r (.num xs) = some (List.zipWith (· + ·) vs ws) := by
    intro xs hx
    obtain ⟨vs, hF, lF⟩ := h.value hp (hx.mono (hT hx.1).1)
    obtain ⟨ws, hG, lG⟩ := h.value hq (hx.mono (hT hx.1).2)
    refine ⟨vs, ws, hF, hG, lF, lG, ?_⟩
    rw [h.reads.sum hr hm (x := .num xs) trivial, hF, hG]
    exact if_pos (lF.trans lG.symm)
  refine ⟨fun xs hx v a b hv ha hb => ?_, fun s hs xs ys hx hy A B D hA hB hD i hi j hj => ?_⟩
  · obtain ⟨vs, ws, h1, h2, _, _, h3⟩ := hF xs hx
    rw [(h.calls hr hx h3).1 v hv, (h.calls hp (hx.mono (hT hx.1).1) h1).1 a ha, (h.calls hq (hx.mono (hT hx.1).2) h2).1 b hb]
    rw [List.zipWith_map, List.map_zipWith]
    simp
  · obtain ⟨vs, ws, h1, h2, l1, l2, h3⟩ := hF xs hx
    obtain ⟨us, e1, c1⟩ := (h.calls hr hx h3).2 s hs ys hy A hA
    obtain ⟨_, e2, c2⟩ := (h.calls hp (hx.mono (hT hx.1).1) h1).2 s hs ys hy B hB
    obtain ⟨_, e3, c3⟩ := (h.calls hq (hx.mono (hT hx.1).2) h2).2 s hs ys hy D hD
    rw [e1] at e2 e3; cases e2; cases e3
    rw [c1 i hi j hj, c2 i hi j hj, c3 i hi j hj,
      getD_zipWith _ _ _ 0 0 _ (hi.trans_eq l1.symm) (hi.trans_eq l2.symm), map_add, LinearMap.add_apply]

/-- **C10.** `c * p`, so also `-p` and `p / c`, has the mean and covariances of the pointwise multiple. -/
theorem C10_scale {c : ℝ} (h : Regular G ops) (hm : Runs ops before (.scale p c) r)
    (hr : Attached (runOps ops {}) m r) :
    (∀ xs, Rows (G r) xs → ∀ v a, MeanCall (runOps ops {}) m r (.num xs) v → MeanCall (runOps ops {}) m p (.num xs) a →
      v = a.map (c * ·)) ∧
    ∀ s, Attached (runOps ops {}) m s → ∀ xs ys, Rows (G r) xs → Rows (G s) ys → ∀ A B,
      KernelCall (runOps ops {}) m r s (.num xs) (.num ys) A → KernelCall (runOps ops {}) m p s (.num xs) (.num ys) B →
      ∀ i < xs.length, ∀ j < ys.length, A.e i j = c * B.e i j := by
  have hm := hm.of (d := .scale p c) rfl
  have hT : Live G r → ∀ x, G r x → G p x := h.def_total hm
  have hp := h.reads.refs hr hm p (by simp [ProcDef.refs])
  have hF : ∀ xs : List Pt, Rows (G r) xs → ∃ vs, (reading ops).F m p (.num xs) = some vs ∧ vs.length = xs.length ∧
      (reading ops).F m r (.num xs) = some (vs.map (c • ·)) := by
    intro xs hx
    obtain ⟨vs, hF, lF⟩ := h.value hp (hx.mono (hT hx.1))
    refine ⟨vs, hF, lF, ?_⟩
    rw [h.reads.scale hr hm (x := .num xs) trivial, hF]
    rfl
  refine ⟨fun xs hx v a hv ha => ?_, fun s hs xs ys hx hy A B hA hB i hi j hj => ?_⟩
  · obtain ⟨vs, h1, _, h3⟩ := hF xs hx
    rw [(h.calls hr hx h3).1 v hv, (h.calls hp (hx.mono (hT hx.1)) h1).1 a ha]
    simp
  · obtain ⟨vs, h1, l1, h3⟩ := hF xs hx
    obtain ⟨us, e1, c1⟩ := (h.calls hr hx h3).2 s hs ys hy A hA
    obtain ⟨_, e2, c2⟩ := (h.calls hp (hx.mono (hT hx.1)) h1).2 s hs ys hy B hB
    rw [e1] at e2; cases e2
    rw [c1 i hi j hj, c2 i hi j hj, getD_map _ _ 0 _ (hi.trans_eq l1.symm), map_smul, LinearMap.smul_apply, smul_eq_mul]

/-- What a number or a function of the user is at a row. -/
def Fn.at (x : Pt) : Fn → ℝ
  | .user f => f x
  | .const c => c
  | .meanOf _ _ => 0

theorem Interp.fnAt_plain {f : Fn} (hf : f.Plain) (xs : List Pt) : I.fnAt f (.num xs) xs.length = some (xs.map fun x => f.at x) := by
  cases f with
  | user f => exact if_pos rfl
  | const c =>
    show some (List.replicate xs.length c) = some (xs.map fun _ => c)
    rw [List.map_const']
  | meanOf => exact hf.elim

/-- **C10.** `p + c` and `p + f` have the mean of the translation and the covariances of `p`. -/
theorem C10_addFn {f : Fn} (h : Regular G ops) (hm : Runs ops before (.addFn p f) r)
    (hr : Attached (runOps ops {}) m r) :
    (∀ xs, Rows (G r) xs → ∀ v a, MeanCall (runOps ops {}) m r (.num xs) v → MeanCall (runOps ops {}) m p (.num xs) a →
      v = List.zipWith (fun x u => u + f.at x) xs a) ∧
    ∀ s, Attached (runOps ops {}) m s → ∀ xs ys, Rows (G r) xs → Rows (G s) ys → ∀ A B,
      KernelCall (runOps ops {}) m r s (.num xs) (.num ys) A → KernelCall (runOps ops {}) m p s (.num xs) (.num ys) B →
      ∀ i < xs.length, ∀ j < ys.length, A.e i j = B.e i j := by
  have hm := hm.of (d := .addFn p f) rfl
  have hT : Live G r → (∀ x, G r x → G p x) ∧ f.Plain := h.def_total hm
  have hp := h.reads.refs hr hm p (by simp [ProcDef.refs])
  have hF : ∀ xs : List Pt, Rows (G r) xs → ∃ vs, (reading ops).F m p (.num xs) = some vs ∧ vs.length = xs.length ∧
      (reading ops).F m r (.num xs) =
        some (List.zipWith (fun v u => v + u • (reading ops).one) vs (xs.map fun x => f.at x)) := by
    intro xs hx
    obtain ⟨vs, hF, lF⟩ := h.value hp (hx.mono (hT hx.1).1)
    refine ⟨vs, hF, lF, ?_⟩
    rw [h.reads.addFn hr hm (x := .num xs) trivial, hF]
    show ((reading ops).fnAt f (.num xs) vs.length >>= _) = _
    rw [lF, Interp.fnAt_plain (hT hx.1).2 xs]
    rfl
  refine ⟨fun xs hx v a hv ha => ?_, fun s hs xs ys hx hy A B hA hB i hi j hj => ?_⟩
  · obtain ⟨vs, h1, l1, h3⟩ := hF xs hx
    rw [(h.calls hr hx h3).1 v hv, (h.calls hp (hx.mono (hT hx.1).1) h1).1 a ha]
    refine List.ext_getElem (by simp [l1]) fun i h1 h2 => ?_
    simp [h.reads.one_E m]
  · obtain ⟨vs, h1, l1, h3⟩ := hF xs hx
    obtain ⟨us, e1, c1⟩ := (h.calls hr hx h3).2 s hs ys hy A hA
    obtain ⟨_, e2, c2⟩ := (h.calls hp (hx.mono (hT hx.1).1) h1).2 s hs ys hy B hB
    rw [e1] at e2; cases e2
    rw [c1 i hi j hj, c2 i hi j hj, getD_zipWith _ _ _ 0 0 _ (hi.trans_eq l1.symm) (by simpa using hi), map_add,
      LinearMap.add_apply, map_smul, LinearMap.smul_apply, h.reads.one_C, smul_zero, add_zero]

/-- **C10.** `f * p` has the mean and covariances of the pointwise product. -/
theorem C10_fmul {f : Fn} (h : Regular G ops) (hm : Runs ops before (.fmul p f) r)
    (hr : Attached (runOps ops {}) m r) :
    (∀ xs, Rows (G r) xs → ∀ v a, MeanCall (runOps ops {}) m r (.num xs) v → MeanCall (runOps ops {}) m p (.num xs) a →
      v = List.zipWith (fun x u => f.at x * u) xs a) ∧
    ∀ s, Attached (runOps ops {}) m s → ∀ xs ys, Rows (G r) xs → Rows (G s) ys → ∀ A B,
      KernelCall (runOps ops {}) m r s (.num xs) (.num ys) A → KernelCall (runOps ops {}) m p s (.num xs) (.num ys) B →
      ∀ i < xs.length, ∀ j < ys.length, A.e i j = f.at (xs.getD i []) * B.e i j := by
  have hf : f.Plain := h.elem (.fmul p f) (by obtain ⟨_, e⟩ := hm.split; rw [e]; simp)
  have hm := hm.of (d := .fmul p f) rfl
  have hT : Live G r → ∀ x, G r x → G p x := fun cr => (show _ ∧ f.Total G (G r) from h.def_total hm cr).1
  have hp := h.reads.refs hr hm p (by simp [ProcDef.refs])
  have hF : ∀ xs : List Pt, Rows (G r) xs → ∃ vs, (reading ops).F m p (.num xs) = some vs ∧ vs.length = xs.length ∧
      (reading ops).F m r (.num xs) = some (List.zipWith (fun v u => u • v) vs (xs.map fun x => f.at x)) := by
    intro xs hx
    obtain ⟨vs, hF, lF⟩ := h.value hp (hx.mono (hT hx.1))
    refine ⟨vs, hF, lF, ?_⟩
    rw [h.reads.fmul hr hm (x := .num xs) trivial, hF]
    show ((reading ops).fnAt f (.num xs) vs.length >>= _) = _
    rw [lF, Interp.fnAt_plain hf xs]
    rfl
  refine ⟨fun xs hx v a hv ha => ?_, fun s hs xs ys hx hy A B hA hB i hi j hj => ?_⟩
  · obtain ⟨vs, h1, l1, h3⟩ := hF xs hx
    rw [(h.calls hr hx h3).1 v hv, (h.calls hp (hx.mono (hT hx.1)) h1).1 a ha]
    refine List.ext_getElem (by simp [l1]) fun i h1 h2 => ?_
    simp
  · obtain ⟨vs, h1, l1, h3⟩ := hF xs hx
    obtain ⟨us, e1, c1⟩ := (h.calls hr hx h3).2 s hs ys hy A hA
    obtain ⟨_, e2, c2⟩ := (h.calls hp (hx.mono (hT hx.1)) h1).2 s hs ys hy B hB
    rw [e1] at e2; cases e2
    rw [c1 i hi j hj, c2 i hi j hj, getD_zipWith _ _ _ 0 0 _ (hi.trans_eq l1.symm) (by simpa using hi), map_smul,
      LinearMap.smul_apply, getD_map _ _ [] _ hi, smul_eq_mul]

/-- **C10.** `p - q`, which runs `-q` and then `p + (-q)` (`stheno/random.py:24-28`). -/
theorem C10_sub {b1 b2 : List Op} {n : PId} (h : Regular G ops) (hn : Runs ops b1 (.scale q (-1)) n)
    (hm : Runs ops b2 (.add p n ord) r) (hr : Attached (runOps ops {}) m r) :
    (∀ xs, Rows (G r) xs → ∀ v a b, MeanCall (runOps ops {}) m r (.num xs) v → MeanCall (runOps ops {}) m p (.num xs) a →
      MeanCall (runOps ops {}) m q (.num xs) b → v = List.zipWith (· - ·) a b) ∧
    ∀ s, Attached (runOps ops {}) m s → ∀ xs ys, Rows (G r) xs → Rows (G s) ys → ∀ A B D,
      KernelCall (runOps ops {}) m r s (.num xs) (.num ys) A → KernelCall (runOps ops {}) m p s (.num xs) (.num ys) B →
      KernelCall (runOps ops {}) m q s (.num xs) (.num ys) D →
      ∀ i < xs.length, ∀ j < ys.length, A.e i j = B.e i j - D.e i j := by
  have hT : Live G r → (∀ x, G r x → G p x) ∧ ∀ x, G r x → G n x := h.def_total (hm.of (d := .sum p n) rfl)
  have hna := h.reads.refs hr (hm.of (d := .sum p n) rfl) n (by simp [ProcDef.refs])
  obtain ⟨s1, s2⟩ := C10_sum h hm hr
  obtain ⟨t1, t2⟩ := C10_scale h hn hna
  refine ⟨fun xs hx v a b hv ha hb => ?_, fun s hs xs ys hx hy A B D hA hB hD i hi j hj => ?_⟩
  · obtain ⟨c, hc, lc⟩ := h.mean hna (hx.mono (hT hx.1).2)
    rw [s1 xs hx v a c hv ha hc, t1 xs (hx.mono (hT hx.1).2) c b hc hb, List.zipWith_map_right]
    congr 1
    funext a b
    ring
  · obtain ⟨E, hE, _⟩ := h.kernel hna hs (hx.mono (hT hx.1).2) hy
    rw [s2 s hs xs ys hx hy A B E hA hB hE i hi j hj, t2 s hs xs ys (hx.mono (hT hx.1).2) hy E D hE hD i hi j hj]
    ring

/-- **C10.** `p - p` has zero mean and zero covariance with any process, in particular zero variance. -/
theorem C10_self_sub {b1 b2 : List Op} {n : PId} (h : Regular G ops) (hn : Runs ops b1 (.scale p (-1)) n)
    (hm : Runs ops b2 (.add p n ord) r) (hr : Attached (runOps ops {}) m r) :
    (∀ xs, Rows (G r) xs → ∀ v, MeanCall (runOps ops {}) m r (.num xs) v → v = List.replicate xs.length 0) ∧
    ∀ s, Attached (runOps ops {}) m s → ∀ xs ys, Rows (G r) xs → Rows (G s) ys → ∀ A, KernelCall (runOps ops {}) m r s (.num xs) (.num ys) A →
      ∀ i < xs.length, ∀ j < ys.length, A.e i j = 0 := by
  have hT : Live G r → (∀ x, G r x → G p x) ∧ ∀ x, G r x → G n x := h.def_total (hm.of (d := .sum p n) rfl)
  have hp := h.reads.refs hr (hm.of (d := .sum p n) rfl) p (by simp [ProcDef.refs])
  obtain ⟨s1, s2⟩ := C10_sub h hn hm hr
  refine ⟨fun xs hx v hv => ?_, fun s hs xs ys hx hy A hA i hi j hj => ?_⟩
  · obtain ⟨a, ha, la⟩ := h.mean hp (hx.mono (hT hx.1).1)
    rw [s1 xs hx v a a hv ha ha, List.zipWith_self, ← la]
    simp
  · obtain ⟨B, hB, _⟩ := h.kernel hp hs (hx.mono (hT hx.1).1) hy
    rw [s2 s hs xs ys hx hy A B B hA hB hB i hi j hj, sub_self]

theorem study_runs {i : ℕ} {o : Op} (h : study[i]? = some o) {r : PId} (hr : r = (runOps (study.take i) {}).gps.length)
    (ha : ∃ m, Attached (runOps (study.take i ++ [o]) {}) m r) : Runs study (study.take i) o r where
  split := by
    obtain ⟨hi, rfl⟩ := List.getElem?_eq_some_iff.1 h
    exact ⟨study.drop (i + 1), by rw [List.getElem_cons_drop, List.take_append_drop]⟩
  id := hr
  attached := ha

/-- In `study`, process 2 is a sum; its covariance with the new process 8 in the posterior of the posterior. -/
example (xs ys : List Pt) {A B D : Mat} (hA : KernelCall (runOps study {}) 2 2 8 (.num xs) (.num ys) A)
    (hB : KernelCall (runOps study {}) 2 0 8 (.num xs) (.num ys) B)
    (hD : KernelCall (runOps study {}) 2 1 8 (.num xs) (.num ys) D) :
    ∀ i < xs.length, ∀ j < ys.length, A.e i j = B.e i j + D.e i j :=
  (C10_sum (before := study.take 2) study_regular (study_runs rfl rfl ⟨0, attached_iff.2 rfl⟩)
    (attached_iff.2 rfl)).2 8 (attached_iff.2 rfl) xs ys (rows_off (by decide)) (rows_off (by decide)) A B D hA hB hD

example (xs : List Pt) {A B : Mat} (hA : KernelCall (runOps study {}) 1 5 0 (.num xs) (.num xs) A)
    (hB : KernelCall (runOps study {}) 1 0 0 (.num xs) (.num xs) B) :
    ∀ i < xs.length, ∀ j < xs.length, A.e i j = 3 * B.e i j :=
  (C10_scale (before := study.take 6) study_regular (study_runs rfl rfl ⟨0, attached_iff.2 rfl⟩)
    (attached_iff.2 rfl)).2 0 (attached_iff.2 rfl) xs xs (rows_off (by decide)) (rows_off (by decide)) A B hA hB

example (xs : List Pt) {v a : List ℝ} (hv : MeanCall (runOps study {}) 2 12 (.num xs) v)
    (ha : MeanCall (runOps study {}) 2 0 (.num xs) a) : v = List.zipWith (fun _ u => u + 5) xs a :=
  (C10_addFn (f := .const 5) (before := study.take 14) study_regular (study_runs rfl rfl ⟨0, attached_iff.2 rfl⟩)
    (attached_iff.2 rfl)).1 xs (rows_off (by decide)) v a hv ha

example (xs : List Pt) {v a : List ℝ} (hv : MeanCall (runOps study {}) 2 13 (.num xs) v)
    (ha : MeanCall (runOps study {}) 2 0 (.num xs) a) : v = List.zipWith (fun x u => x.sum * u) xs a :=
  (C10_fmul (f := .user fun x => x.sum) (before := study.take 15) study_regular (study_runs rfl rfl ⟨0, attached_iff.2 rfl⟩)
    (attached_iff.2 rfl)).1 xs (rows_off (by decide)) v a hv ha

example (xs : List Pt) {A : Mat} (hA : KernelCall (runOps study {}) 2 11 11 (.num xs) (.num xs) A) :
    ∀ i < xs.length, ∀ j < xs.length, A.e i j = 0 :=
  (C10_self_sub (b1 := study.take 12) (b2 := study.take 13) study_regular
    (study_runs rfl rfl ⟨0, attached_iff.2 rfl⟩) (study_runs rfl rfl ⟨0, attached_iff.2 rfl⟩)
    (attached_iff.2 rfl)).2 11 (attached_iff.2 rfl) xs xs (rows_off (by decide)) (rows_off (by decide)) A hA

/-! ## C11 -/

/-- **C11.** `p.shift(s)`, `p.stretch(s)`, `p.transform(f)`: if the transformation maps the inputs `xs` to `xs'`, then
calls of the result at `xs` are calls of `p` at `xs'`, and the other argument of a kernel is as before. -/
theorem C11_pre {t : InTr} {xs' : List Pt} (h : Regular G ops) (hm : Runs ops before (.pre p t) r)
    (hr : Attached (runOps ops {}) m r) (hx : Rows (G r) xs) (ht : t.apply (.num xs) = some (.num xs')) :
    (∀ v, MeanCall (runOps ops {}) m r (.num xs) v → MeanCall (runOps ops {}) m p (.num xs') v) ∧
    ∀ s, Attached (runOps ops {}) m s → ∀ ys, Rows (G s) ys → ∀ A B,
      KernelCall (runOps ops {}) m r s (.num xs) (.num ys) A → KernelCall (runOps ops {}) m p s (.num xs') (.num ys) B →
      A.Eqv B := by
  have hm := hm.of (d := .pre p t) rfl
  have hT : t.Maps (G r) (G p) := h.def_total hm hx.1
  obtain ⟨xs'', ht', hx', _⟩ := hT.rows hx
  rw [ht] at ht'; cases ht'
  have hp := h.reads.refs hr hm p (by simp [ProcDef.refs])
  obtain ⟨vs, h1, l1⟩ := h.value hp hx'
  have h3 : (reading ops).F m r (.num xs) = some vs := by
    rw [h.reads.pre hr hm (x := .num xs) trivial, ht]
    exact h1
  refine ⟨fun v hv => ?_, fun s hs ys hy A B hA hB => ?_⟩
  · obtain ⟨a, ha, _⟩ := h.mean hp hx'
    rw [h.mean_eq hr hx hv h3, ← h.mean_eq hp hx' ha h1]
    exact ha
  · obtain ⟨ws, hG, _⟩ := h.value hs hy
    exact (h.kernel_eq hr hs hx hy hA h3 hG).trans (h.kernel_eq hp hs hx' hy hB h1 hG).symm

theorem mapM_map_some {α β : Type} (f : α → β) (l : List α) : (l.mapM fun a => some (f a)) = some (l.map f) := by
  induction l with
  | nil => rfl
  | cons a l ih => rw [List.mapM_cons, ih]; rfl

/-- What the transformations do to inputs: `shift` subtracts, `stretch` divides, `transform` applies the function. -/
theorem C11_inputs (c : ℝ) (g : Pt → Pt) (xs : List Pt) :
    (InTr.shift (.scalar c)).apply (.num xs) = some (.num (xs.map (·.map (· - c)))) ∧
    (InTr.stretch (.scalar c)).apply (.num xs) = some (.num (xs.map (·.map (· / c)))) ∧
    (InTr.map g).apply (.num xs) = some (.num (xs.map g)) := by
  refine ⟨?_, ?_, rfl⟩
  · show (xs.mapM fun x => some (x.map (· - c))).map Input.num = _
    rw [mapM_map_some]
    rfl
  · show (xs.mapM fun x => some (x.map (· / c))).map Input.num = _
    rw [mapM_map_some]
    rfl

example (xs ys : List Pt) {A B : Mat} (hA : KernelCall (runOps study {}) 2 3 8 (.num xs) (.num ys) A)
    (hB : KernelCall (runOps study {}) 2 2 8 (.num (xs.map (·.map (· - 1)))) (.num ys) B) : A.Eqv B :=
  (C11_pre (before := study.take 3) study_regular (study_runs rfl rfl ⟨0, attached_iff.2 rfl⟩) (attached_iff.2 rfl)
    (rows_off (by decide)) (C11_inputs 1 id xs).1).2 8 (attached_iff.2 rfl) ys (rows_off (by decide)) A B hA hB

end

end Stheno
