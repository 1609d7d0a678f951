import Verif.Props.ExprRuns
import Verif.Props.Smooth

/-!
# C51: What calls return for the value of an expression
-/

namespace Stheno

/-! ## Rows -/

theorem needs_vars {e : PyExpr} {x : Pt} {py : PId × Pt} (h : py ∈ e.needs x) : py.1 ∈ e.vars := by
  induction e generalizing x with
  | num c => cases h
  | fn f => cases h
  | var p => rw [List.mem_singleton.1 h]; exact List.mem_singleton.2 rfl
  | neg a ih => exact ih h
  | move a t ih => exact ih h
  | add a b ih1 ih2 | sub a b ih1 ih2 | mul a b ih1 ih2 | div a b ih1 ih2 =>
    exact List.mem_append.2 ((List.mem_append.1 h).imp (fun h => ih1 h) fun h => ih2 h)

variable {G : Dom} {ops before : List Op} {ord : PId → List MId} {r s p q : PId} {m : MId} {e e' : PyExpr}

theorem Move.row_of {t : Move} {x x' : Pt} (h : t.tr.row x = some x') : x' = t.row x := by
  have : t.tr.apply (.num [x]) = some (.num [x']) := by
    rw [InTr.apply_rows (by cases t <;> simp [Move.tr]), List.mapM_cons, h]; rfl
  cases Move.apply this
  rfl

theorem ExprMade.rows (h : Regular G ops) (hm : ExprMade ops e r) (hl : e.Linear) {x : Pt} (hx : G r x) : ∀ py ∈ e.needs x, G py.1 py.2 := by
  induction hm generalizing x with
  | var => intro py hp; rw [List.mem_singleton.1 hp]; exact hx
  | neg h1 R ih => exact ih hl (h.def_total (R.of (d := .scale _ _) rfl) ⟨x, hx⟩ x hx)
  | add h1 h2 R ih1 ih2 =>
    have T := h.def_total (R.of (d := .sum _ _) rfl) ⟨x, hx⟩
    exact fun py hp => (List.mem_append.1 hp).elim (ih1 hl.1 (T.1 x hx) py) (ih2 hl.2 (T.2 x hx) py)
  | addNum h1 i R ih | addFn h1 i R ih | subNum h1 i R ih =>
    have T := h.def_total (R.of (d := .addFn _ _) rfl) ⟨x, hx⟩
    exact fun py hp => ih hl.1 (T.1 x hx) py (by simpa [PyExpr.needs, needs_fixed i.1 x] using hp)
  | numAdd i h1 R ih | fnAdd i h1 R ih =>
    have T := h.def_total (R.of (d := .addFn _ _) rfl) ⟨x, hx⟩
    exact fun py hp => ih hl.2 (T.1 x hx) py (by simpa [PyExpr.needs, needs_fixed i.1 x] using hp)
  | sub h1 h2 R1 R2 ih1 ih2 =>
    have T := h.def_total (R2.of (d := .sum _ _) rfl) ⟨x, hx⟩
    have T' := h.def_total (R1.of (d := .scale _ _) rfl) ⟨x, T.2 x hx⟩
    exact fun py hp => (List.mem_append.1 hp).elim (ih1 hl.1 (T.1 x hx) py) (ih2 hl.2 (T' x (T.2 x hx)) py)
  | numSub i h1 R1 R2 ih | fnSub i h1 R1 R2 ih =>
    have T := h.def_total (R2.of (d := .addFn _ _) rfl) ⟨x, hx⟩
    have T' := h.def_total (R1.of (d := .scale _ _) rfl) ⟨x, T.1 x hx⟩
    exact fun py hp => ih hl.2 (T' x (T.1 x hx)) py (by simpa [PyExpr.needs, needs_fixed i.1 x] using hp)
  | mul h1 h2 R => exact (hl.2.2 ⟨h1.random, h2.random⟩).elim
  | mulNum h1 i R ih =>
    exact fun py hp => ih hl.1 (h.def_total (R.of (d := .scale _ _) rfl) ⟨x, hx⟩ x hx) py (by simpa [PyExpr.needs, needs_fixed i.1 x] using hp)
  | mulFn h1 i R ih =>
    exact fun py hp => ih hl.1 ((h.def_total (R.of (d := .fmul _ _) rfl) ⟨x, hx⟩).1 x hx) py (by simpa [PyExpr.needs, needs_fixed i.1 x] using hp)
  | numMul i h1 R ih =>
    exact fun py hp => ih hl.2.1 (h.def_total (R.of (d := .scale _ _) rfl) ⟨x, hx⟩ x hx) py (by simpa [PyExpr.needs, needs_fixed i.1 x] using hp)
  | fnMul i h1 R ih =>
    exact fun py hp => ih hl.2.1 ((h.def_total (R.of (d := .fmul _ _) rfl) ⟨x, hx⟩).1 x hx) py (by simpa [PyExpr.needs, needs_fixed i.1 x] using hp)
  | div h1 i hc R ih =>
    exact fun py hp => ih hl.1 (h.def_total (R.of (d := .scale _ _) rfl) ⟨x, hx⟩ x hx) py (by simpa [PyExpr.needs, needs_fixed i.1 x] using hp)
  | move h1 R ih =>
    obtain ⟨x', e, hx'⟩ := h.def_total (R.of (d := .pre _ _) rfl) ⟨x, hx⟩ x hx
    cases Move.row_of e
    exact ih hl hx'

section
variable {V W : Type} [AddCommGroup V] [Module ℝ V] [AddCommGroup W] [Module ℝ W]

theorem value_map (L : V →ₗ[ℝ] W) (one : V) (F : PId → Pt → V) (e : PyExpr) (x : Pt) :
    L (e.value one F x) = e.value (L one) (fun p y => L (F p y)) x := by
  induction e generalizing x with
  | num c => exact map_smul _ _ _
  | fn f => exact map_smul _ _ _
  | var p => rfl
  | neg a ih => rw [PyExpr.value, map_neg, ih]; rfl
  | add a b ih1 ih2 => rw [PyExpr.value, map_add, ih1, ih2]; rfl
  | sub a b ih1 ih2 => rw [PyExpr.value, map_sub, ih1, ih2]; rfl
  | mul a b ih1 ih2 =>
    rw [PyExpr.value, PyExpr.value]
    split
    · rw [map_smul, ih1]
    · rw [map_smul, ih2]
  | div a b ih1 ih2 => rw [PyExpr.value, map_smul, ih1]; rfl
  | move a t ih => rw [PyExpr.value, ih]; rfl

theorem value_congr {one : V} {F F' : PId → Pt → V} {e : PyExpr} {x : Pt} (h : ∀ py ∈ e.needs x, F py.1 py.2 = F' py.1 py.2) :
    e.value one F x = e.value one F' x := by
  induction e generalizing x with
  | num c => rfl
  | fn f => rfl
  | var p => exact h _ (List.mem_singleton.2 rfl)
  | neg a ih => rw [PyExpr.value, PyExpr.value, ih h]
  | add a b ih1 ih2 | sub a b ih1 ih2 | mul a b ih1 ih2 =>
    rw [PyExpr.value, PyExpr.value, ih1 fun py hp => h py (List.mem_append_left _ hp), ih2 fun py hp => h py (List.mem_append_right _ hp)]
  | div a b ih1 ih2 => rw [PyExpr.value, PyExpr.value, ih1 fun py hp => h py (List.mem_append_left _ hp)]
  | move a t ih => exact ih h

end

/-- A process is an expression. -/
theorem RunsExpr.var (h : Attached (runOps ops {}) m p) : RunsExpr ops ops ord (.var p) p := by
  have hg := List.ne_nil_of_mem (((C32_consistent ops).1 m p).1 h)
  exact ⟨ops, [], bind_run (show existing p ops = .ok p ops from if_pos (groups_lt hg)), by simp, hg⟩

/-- The random variables of the result of an expression. -/
theorem Regular.express (h : Regular G ops) (he : RunsExpr ops before ord e r) (hl : e.Linear) (hr : Attached (runOps ops {}) m r)
    {xs : List Pt} (hx : Rows (G r) xs) :
    (∀ p ∈ e.vars, Attached (runOps ops {}) m p) ∧
    (reading ops).F m r (.num xs) = some (xs.map (e.value (reading ops).one fun p => pointOf ((reading ops).F m p))) := by
  obtain ⟨hv, hp⟩ := h.reads.made he.made hl hr
  refine ⟨hv, ?_⟩
  obtain ⟨vs, hF, lF⟩ := h.value hr hx
  rw [hF, Option.some.injEq]
  refine List.ext_getElem (by simpa using lF) fun i h1 h2 => ?_
  have hi : i < xs.length := lF ▸ h1
  have e1 := (h.reads.ok m r).pointwise xs vs hF lF i xs[i] vs[i] (List.getElem?_eq_getElem hi) (List.getElem?_eq_getElem h1)
  have hG : G r xs[i] := hx.2 _ (List.getElem_mem hi)
  have := hp (fun p => pointOf ((reading ops).F m p)) xs[i] _ (fun py hpy =>
    h.point (hv _ (needs_vars hpy)) (he.made.rows h hl hG py hpy)) e1
  rw [List.getElem_map]
  exact List.singleton_inj.1 this

/-- **C51.** In a regular program, the mean of the result of an expression is the expression in the means of the processes in it: it returns
`2 * μ₁(x) - μ₂(x - 1) + 3` for `2 * p - q.shift(1) + 3`, whatever the expression is, at all rows at which the result can be called. -/
theorem C51_mean (h : Regular G ops) (he : RunsExpr ops before ord e r) (hl : e.Linear) (hr : Attached (runOps ops {}) m r)
    (μ : PId → Pt → ℝ) (hμ : ∀ p ∈ e.vars, ∀ y, G p y → MeanCall (runOps ops {}) m p (.num [y]) [μ p y]) {xs : List Pt} (hx : Rows (G r) xs) :
    MeanCall (runOps ops {}) m r (.num xs) (xs.map (e.value 1 μ)) := by
  obtain ⟨hv, hF⟩ := h.express he hl hr hx
  obtain ⟨v, hc, -⟩ := h.mean hr hx
  rw [(h.calls hr hx hF).1 v hc] at hc
  convert hc using 1
  rw [List.map_map]
  refine List.map_congr_left fun x hx' => ?_
  rw [Function.comp, value_map, h.reads.one_E]
  refine value_congr fun py hp => ?_
  have hG := he.made.rows h hl (hx.2 x hx') py hp
  have hp' := hv _ (needs_vars hp)
  have := (h.calls hp' (.one hG) (h.point hp' hG)).1 _ (hμ _ (needs_vars hp) _ hG)
  simpa using this

/-- **C51.** In a regular program, the covariances between the results of two expressions are what bilinearity says: replace the processes in one
expression by the kernels with the other, and the processes in the other by the kernels between the processes; numbers and functions that are added
do not matter. -/
theorem C51_kernel {before' : List Op} {ord' : PId → List MId} (h : Regular G ops) (he : RunsExpr ops before ord e r) (hl : e.Linear)
    (hr : Attached (runOps ops {}) m r) (he' : RunsExpr ops before' ord' e' s) (hl' : e'.Linear) (hs : Attached (runOps ops {}) m s)
    (κ : PId → PId → Pt → Pt → ℝ) (hκ : ∀ p ∈ e.vars, ∀ q ∈ e'.vars, ∀ y z, G p y → G q z → ∀ A,
      KernelCall (runOps ops {}) m p q (.num [y]) (.num [z]) A → A.e 0 0 = κ p q y z)
    {xs ys : List Pt} (hx : Rows (G r) xs) (hy : Rows (G s) ys) {A : Mat} (hA : KernelCall (runOps ops {}) m r s (.num xs) (.num ys) A) :
    A.r = xs.length ∧ A.c = ys.length ∧ ∀ (i j : ℕ) (hi : i < xs.length) (hj : j < ys.length),
      A.e i j = e.value 0 (fun p y => e'.value 0 (fun q z => κ p q y z) ys[j]) xs[i] := by
  obtain ⟨hv, hF⟩ := h.express he hl hr hx
  obtain ⟨hw, hF'⟩ := h.express he' hl' hs hy
  have hE := h.kernel_eq hr hs hx hy hA hF hF'
  refine ⟨by rw [hE.r]; simp [covMat], by rw [hE.c]; simp [covMat], fun i j hi hj => ?_⟩
  rw [hE.e i (by simpa [covMat] using hi) j (by simpa [covMat] using hj)]
  simp only [covMat, List.getD_eq_getElem?_getD, List.getElem?_map, List.getElem?_eq_getElem hi, List.getElem?_eq_getElem hj, Option.map_some,
    Option.getD_some]
  rw [← LinearMap.flip_apply, value_map, LinearMap.flip_apply, h.reads.one_C]
  refine value_congr fun py hp => ?_
  rw [LinearMap.flip_apply, value_map, ((reading ops).S m).symm, h.reads.one_C]
  refine value_congr fun qz hq => ?_
  have hG := he.made.rows h hl (hx.2 _ (List.getElem_mem hi)) py hp
  have hG' := he'.made.rows h hl' (hy.2 _ (List.getElem_mem hj)) qz hq
  have hp' := hv _ (needs_vars hp)
  have hq' := hw _ (needs_vars hq)
  obtain ⟨B, hB, -⟩ := h.kernel hp' hq' (.one hG) (.one hG')
  rw [← hκ _ (needs_vars hp) _ (needs_vars hq) _ _ hG hG' B hB]
  have := (h.kernel_eq hp' hq' (.one hG) (.one hG') hB (h.point hp' hG) (h.point hq' hG')).e 0 (by simp [covMat]) 0 (by simp [covMat])
  rw [this]
  simp [covMat]

/-- **C51.** Expressions that are the same by the rules of arithmetic give the same process: the mean and the covariances with every process are
the same, so in particular the variance of the difference is zero. -/
theorem C51_equal {before' : List Op} {ord' : PId → List MId} (h : Regular G ops) (he : RunsExpr ops before ord e r) (hl : e.Linear)
    (hr : Attached (runOps ops {}) m r) (he' : RunsExpr ops before' ord' e' s) (hl' : e'.Linear) (hs : Attached (runOps ops {}) m s)
    (heq : ∀ (V : Type) [AddCommGroup V] [Module ℝ V] (one : V) (F : PId → Pt → V) (x : Pt), e.value one F x = e'.value one F x)
    {xs : List Pt} (hx : Rows (G r) xs) (hx' : Rows (G s) xs) :
    (∀ v, MeanCall (runOps ops {}) m r (.num xs) v ↔ MeanCall (runOps ops {}) m s (.num xs) v) ∧
    ∀ q, Attached (runOps ops {}) m q → ∀ ys, Rows (G q) ys → ∀ A B, KernelCall (runOps ops {}) m r q (.num xs) (.num ys) A →
      KernelCall (runOps ops {}) m s q (.num xs) (.num ys) B → A.Eqv B := by
  obtain ⟨-, hF⟩ := h.express he hl hr hx
  obtain ⟨-, hF'⟩ := h.express he' hl' hs hx'
  rw [show e'.value (reading ops).one (fun p => pointOf ((reading ops).F m p)) = e.value (reading ops).one (fun p => pointOf ((reading ops).F m p))
    from funext fun x => (heq _ _ _ x).symm] at hF'
  obtain ⟨u, hu, -⟩ := h.mean hr hx
  obtain ⟨w, hw, -⟩ := h.mean hs hx'
  have : u = w := ((h.calls hr hx hF).1 u hu).trans ((h.calls hs hx' hF').1 w hw).symm
  subst this
  refine ⟨fun v => ⟨fun hv => by rw [hv.unique hu]; exact hw, fun hv => by rw [hv.unique hw]; exact hu⟩, fun q hq ys hy A B hA hB => ?_⟩
  obtain ⟨ws, hG, lG⟩ := h.value hq hy
  have h1 := h.kernel_eq hr hq hx hy hA hF hG
  have h2 := h.kernel_eq hs hq hx' hy hB hF' hG
  exact ⟨h1.r.trans h2.r.symm, h1.c.trans h2.c.symm, fun i hi j hj => by
    rw [h1.e i (h2.r ▸ hi) j (h2.c ▸ hj), h2.e i (h2.r ▸ hi) j (h2.c ▸ hj)]⟩

/-! ## Calls return -/

/-- Inputs are shifted and stretched by numbers and transformed, but no dimensions are selected. -/
def PyExpr.Everywhere : PyExpr → Prop
  | .num _ | .fn _ | .var _ => True
  | .neg a => a.Everywhere
  | .move a t => a.Everywhere ∧ t.tr.Total
  | .add a b | .sub a b | .mul a b | .div a b => a.Everywhere ∧ b.Everywhere

section
variable {C : PId → Prop} {u v w : PyVal} {l : List Op}

/-- The value can be called at all rows, in a program whose other calls return. -/
structure Callable (C : PId → Prop) (l : List Op) (v : PyVal) : Prop where
  solid : Solid (off C) l
  out : ∀ p, v = .gp p → ¬ C p
  next : ∀ r, (runOps l {}).gps.length ≤ r → ¬ C r

theorem fine_perform {o : Op} {ps : List PId} (hs : Solid (off C) before) (hn : ∀ r, (runOps before {}).gps.length ≤ r → ¬ C r)
    (ho : o.Arith ps) (ho' : ∀ p t, o = .pre p t → t.Total) (hf : ∀ p f, o = .addFn p f ∨ o = .fmul p f → f.Plain) (hp : ∀ p ∈ ps, ¬ C p)
    (h : perform o before = .ok r l) : Callable C l (.gp r) := by
  have gr := perform_grown ho h
  obtain ⟨rfl, rfl, hr⟩ := perform_ok h
  refine ⟨?_, fun p e => by cases e; exact hn _ le_rfl, fun s hs' => hn s (gr.1.len.trans hs')⟩
  have one : ∀ d : ProcDef, o.Elem → (∀ m obs, o ≠ .condition m obs) → (∀ p d, o ≠ .diff p d) →
      (∀ m, o.written (runOps before {}).gps.length m = [((runOps before {}).gps.length, d)]) → d.TotalOff C → Solid (off C) (before ++ [o]) := by
    intro d he hc hd hw ht
    refine C46_extend hs he hc (fun m e he _ => ?_) fun p d m e => (hd p d e).elim
    rw [hw m] at he
    rw [List.mem_singleton.1 he]
    exact ht.total
  cases o with
  | addFn p f =>
    cases ho
    exact one (.addFn p f) (hf p f (.inl rfl)) (fun _ _ h => by cases h) (fun _ _ h => by cases h) (fun _ => rfl) ⟨hp p (by simp), hf p f (.inl rfl)⟩
  | scale p c => cases ho; exact one (.scale p c) trivial (fun _ _ h => by cases h) (fun _ _ h => by cases h) (fun _ => rfl) (hp p (by simp))
  | fmul p f =>
    cases ho
    have hf := hf p f (.inr rfl)
    exact one (.fmul p f) hf (fun _ _ h => by cases h) (fun _ _ h => by cases h) (fun _ => rfl)
      ⟨hp p (by simp), by cases f <;> trivial⟩
  | pre p t =>
    cases ho
    have ht := ho' p t rfl
    exact one (.pre p t) (fun j e => by rw [e] at ht; exact ht) (fun _ _ h => by cases h) (fun _ _ h => by cases h) (fun _ => rfl) ⟨hp p (by simp), ht⟩
  | add p q o =>
    cases ho
    exact one (.sum p q) trivial (fun _ _ h => by cases h) (fun _ _ h => by cases h) (fun _ => rfl) ⟨hp p (by simp), hp q (by simp)⟩
  | mul p q o =>
    cases ho
    exact C46_mul hs fun k _ x => iff_of_true (hn _ (Nat.le_add_right _ _)) ⟨hp p (by simp), hp q (by simp)⟩
  | _ => exact ho.elim

theorem Callable.num {c : ℝ} {l : List Op} {v : PyVal} (h : Callable C l v) : Callable C l (.num c) := ⟨h.solid, nofun, h.next⟩

theorem fine_plus (h : Callable C before (.gp p)) (hv : Callable C before v) (hr : gpPlus ord p v before = .ok r l) : Callable C l (.gp r) := by
  cases v with
  | num c =>
    exact fine_perform h.solid h.next (o := .addFn p (.const c)) (ps := [p]) rfl (fun _ _ e => by cases e)
      (fun _ f e => by rcases e with e | e <;> cases e; trivial) (by simpa using h.out p rfl) hr
  | fn f =>
    exact fine_perform h.solid h.next (o := .addFn p (.user f)) (ps := [p]) rfl (fun _ _ e => by cases e)
      (fun _ f e => by rcases e with e | e <;> cases e; trivial) (by simpa using h.out p rfl) hr
  | gp q =>
    obtain ⟨o, hr⟩ := gpPlus_gp hr
    exact fine_perform h.solid h.next (o := .add p q o) (ps := [p, q]) rfl (fun _ _ e => by cases e) (fun _ f e => by rcases e with e | e <;> cases e)
      (by simpa using ⟨h.out p rfl, hv.out q rfl⟩) hr

theorem fine_times (h : Callable C before (.gp p)) (hv : Callable C before v) (hr : gpTimes ord p v before = .ok r l) : Callable C l (.gp r) := by
  cases v with
  | num c =>
    exact fine_perform h.solid h.next (o := .scale p c) (ps := [p]) rfl (fun _ _ e => by cases e) (fun _ f e => by rcases e with e | e <;> cases e)
      (by simpa using h.out p rfl) hr
  | fn f =>
    exact fine_perform h.solid h.next (o := .fmul p (.user f)) (ps := [p]) rfl (fun _ _ e => by cases e)
      (fun _ f e => by rcases e with e | e <;> cases e; trivial) (by simpa using h.out p rfl) hr
  | gp q =>
    obtain ⟨o, hr⟩ := gpTimes_gp hr
    exact fine_perform h.solid h.next (o := .mul p q o) (ps := [p, q]) rfl (fun _ _ e => by cases e) (fun _ f e => by rcases e with e | e <;> cases e)
      (by simpa using ⟨h.out p rfl, hv.out q rfl⟩) hr

theorem fine_add (hu : Callable C before u) (hv : Callable C before v) (h : pyAdd ord u v before = .ok w l) : Callable C l w := by
  have key : ∀ (p : PId) (v : PyVal), Callable C before (.gp p) → Callable C before v →
      (gpPlus ord p v >>= fun r => pure (PyVal.gp r)) before = .ok w l → Callable C l w := by
    intro p v hp hv h
    obtain ⟨r, l1, hr, h⟩ := mbind_ok h
    cases h
    exact fine_plus hp hv hr
  cases u with
  | gp p => exact key p v hu hv h
  | num c =>
    cases v with
    | gp p => exact key p (.num c) hv hu h
    | num d => cases h; exact hu.num
    | fn f => cases h
  | fn f =>
    cases v with
    | gp p => exact key p (.fn f) hv hu h
    | num d => cases h
    | fn f => cases h

theorem fine_mul (hu : Callable C before u) (hv : Callable C before v) (h : pyMul ord u v before = .ok w l) : Callable C l w := by
  have key : ∀ (p : PId) (v : PyVal), Callable C before (.gp p) → Callable C before v →
      (gpTimes ord p v >>= fun r => pure (PyVal.gp r)) before = .ok w l → Callable C l w := by
    intro p v hp hv h
    obtain ⟨r, l1, hr, h⟩ := mbind_ok h
    cases h
    exact fine_times hp hv hr
  cases u with
  | gp p => exact key p v hu hv h
  | num c =>
    cases v with
    | gp p => exact key p (.num c) hv hu h
    | num d => cases h; exact hu.num
    | fn f => cases h
  | fn f =>
    cases v with
    | gp p => exact key p (.fn f) hv hu h
    | num d => cases h
    | fn f => cases h

theorem fine_neg (hu : Callable C before u) (h : pyNeg ord u before = .ok w l) : Callable C l w := by
  cases u with
  | num c => cases h; exact hu.num
  | fn f => cases h
  | gp p => exact fine_mul (hu.num (c := -1)) hu h

theorem Callable.later (hu : Callable C before u) (hw : Callable C l w) : Callable C l u := ⟨hw.solid, hu.out, hw.next⟩

theorem fine_sub (hu : Callable C before u) (hv : Callable C before v) (h : pySub ord u v before = .ok w l) : Callable C l w := by
  have key : ∀ {a b : PyVal}, Callable C before a → Callable C before b → (pyNeg ord a >>= fun n => pyAdd ord b n) before = .ok w l → Callable C l w := by
    intro a b ha hb h
    obtain ⟨n, l1, h1, h⟩ := mbind_ok h
    have hn := fine_neg ha h1
    exact fine_add (hb.later hn) hn h
  have key' : ∀ {a b : PyVal}, Callable C before a → Callable C before b → (pyNeg ord a >>= fun n => pyAdd ord n b) before = .ok w l → Callable C l w := by
    intro a b ha hb h
    obtain ⟨n, l1, h1, h⟩ := mbind_ok h
    have hn := fine_neg ha h1
    exact fine_add hn (hb.later hn) h
  cases u with
  | gp p => exact key hv hu h
  | num c =>
    cases v with
    | gp p => exact key' hv hu h
    | num d => cases h; exact hu.num
    | fn f => cases h
  | fn f =>
    cases v with
    | gp p => exact key' hv hu h
    | num d => cases h
    | fn f => cases h

theorem fine_div (hu : Callable C before u) (h : pyDiv ord u v before = .ok w l) : Callable C l w := by
  cases u with
  | gp p =>
    obtain ⟨n, l1, h1, h2⟩ := mbind_ok (show (pyQuot (.num 1) v >>= fun n => pyMul ord (.gp p) n) before = _ from h)
    obtain ⟨c, d, _, rfl, _, rfl, rfl⟩ := pyQuot_ok h1
    exact fine_mul hu (hu.num (c := c / d)) h2
  | num a => obtain ⟨c, d, h1, rfl, _, rfl, rfl⟩ := pyQuot_ok (u := .num a) (v := v) h; exact hu.num
  | fn f => obtain ⟨c, d, h1, _⟩ := pyQuot_ok (u := .fn f) (v := v) h; cases h1

theorem fine_eval (hs : Solid (off C) before) (hn : ∀ r, (runOps before {}).gps.length ≤ r → ¬ C r) (hv : ∀ p ∈ e.vars, ¬ C p) (he : e.Everywhere)
    (h : e.eval ord before = .ok v l) : Callable C l v := by
  induction e generalizing before l v with
  | num c => cases h; exact ⟨hs, nofun, hn⟩
  | fn f => cases h; exact ⟨hs, nofun, hn⟩
  | var p =>
    obtain ⟨q, l1, hq, h⟩ := mbind_ok (show (existing p >>= fun q => pure (PyVal.gp q)) before = _ from h)
    cases h
    unfold existing at hq
    split at hq
    · cases hq; exact ⟨hs, fun q e => by cases e; exact hv p (by simp [PyExpr.vars]), hn⟩
    · cases hq
  | neg a ih =>
    obtain ⟨u, l1, h1, h⟩ := mbind_ok (show (a.eval ord >>= fun u => pyNeg ord u) before = _ from h)
    exact fine_neg (ih hs hn hv he h1) h
  | add a b ih1 ih2 =>
    obtain ⟨u, l1, h1, h⟩ := mbind_ok (show (a.eval ord >>= fun u => b.eval ord >>= fun v => pyAdd ord u v) before = _ from h)
    obtain ⟨v, l2, h2, h⟩ := mbind_ok h
    have f1 := ih1 hs hn (fun p hp => hv p (List.mem_append_left _ hp)) he.1 h1
    have f2 := ih2 f1.solid f1.next (fun p hp => hv p (List.mem_append_right _ hp)) he.2 h2
    exact fine_add (f1.later f2) f2 h
  | sub a b ih1 ih2 =>
    obtain ⟨u, l1, h1, h⟩ := mbind_ok (show (a.eval ord >>= fun u => b.eval ord >>= fun v => pySub ord u v) before = _ from h)
    obtain ⟨v, l2, h2, h⟩ := mbind_ok h
    have f1 := ih1 hs hn (fun p hp => hv p (List.mem_append_left _ hp)) he.1 h1
    have f2 := ih2 f1.solid f1.next (fun p hp => hv p (List.mem_append_right _ hp)) he.2 h2
    exact fine_sub (f1.later f2) f2 h
  | mul a b ih1 ih2 =>
    obtain ⟨u, l1, h1, h⟩ := mbind_ok (show (a.eval ord >>= fun u => b.eval ord >>= fun v => pyMul ord u v) before = _ from h)
    obtain ⟨v, l2, h2, h⟩ := mbind_ok h
    have f1 := ih1 hs hn (fun p hp => hv p (List.mem_append_left _ hp)) he.1 h1
    have f2 := ih2 f1.solid f1.next (fun p hp => hv p (List.mem_append_right _ hp)) he.2 h2
    exact fine_mul (f1.later f2) f2 h
  | div a b ih1 ih2 =>
    obtain ⟨u, l1, h1, h⟩ := mbind_ok (show (a.eval ord >>= fun u => b.eval ord >>= fun v => pyDiv ord u v) before = _ from h)
    obtain ⟨v, l2, h2, h⟩ := mbind_ok h
    have f1 := ih1 hs hn (fun p hp => hv p (List.mem_append_left _ hp)) he.1 h1
    have f2 := ih2 f1.solid f1.next (fun p hp => hv p (List.mem_append_right _ hp)) he.2 h2
    exact fine_div (f1.later f2) h
  | move a t ih =>
    obtain ⟨u, l1, h1, h⟩ := mbind_ok (show (a.eval ord >>= fun u => pyMove t u) before = _ from h)
    cases u with
    | gp p =>
      obtain ⟨r, l3, hr, h⟩ := mbind_ok (show (perform (.pre p t.tr) >>= fun r => pure (PyVal.gp r)) l1 = _ from h)
      cases h
      have f1 := ih hs hn hv he.1 h1
      exact fine_perform f1.solid f1.next (o := .pre p t.tr) (ps := [p]) rfl (fun _ _ e => by cases e; exact he.2)
        (fun _ f e => by rcases e with e | e <;> cases e) (by simpa using f1.out p rfl) hr
    | _ => cases h

/-- **C51.** Evaluating an expression in a program whose calls return gives such a program again: the mean and the kernels of the value of the
expression, also of products of processes, return at all numeric inputs, in every measure that the value is in; and the theorems about regular
programs apply to it. -/
theorem C51_calls (hs : Solid (off C) before) (hn : ∀ r, (runOps before {}).gps.length ≤ r → ¬ C r) (hv : ∀ p ∈ e.vars, ¬ C p) (he : e.Everywhere)
    (h : e.eval ord before = .ok (.gp r) l) :
    Solid (off C) l ∧ ∀ m, Attached (runOps l {}) m r → ∀ xs,
      (∃ v, MeanCall (runOps l {}) m r (.num xs) v ∧ v.length = xs.length) ∧
      ∀ s, Attached (runOps l {}) m s → ¬ C s → ∀ ys, ∃ A, KernelCall (runOps l {}) m r s (.num xs) (.num ys) A ∧ A.r = xs.length ∧ A.c = ys.length := by
  have f := fine_eval hs hn hv he h
  exact ⟨f.solid, fun m hr xs => ⟨f.solid.regular.mean hr (rows_off (f.out r rfl)), fun s hs hc ys =>
    f.solid.regular.kernel hr hs (rows_off (f.out r rfl)) (rows_off hc)⟩⟩

end

/-! ## An example -/

/-- `(2 * f - f.shift(1)) / 4 + g`, where `g` is the sum of the features. -/
noncomputable def blend : PyExpr :=
  .add (.div (.sub (.mul (.num 2) (.var 0)) (.move (.var 0) (.shift 1))) (.num 4)) (.fn fun x => x.sum)

theorem tower_one_proper : Proper (tower 1) := by
  intro before m obs after e
  rw [show tower 1 = [.gp .zero affine none none, .condition 0 (.exact 0 (.num [[(0 : ℕ)]]) (eye 1) [1]), .gp .zero affine (some 1) none] from rfl] at e
  rcases before with _ | ⟨o, _ | ⟨o', _ | ⟨o'', b⟩⟩⟩
  · cases e
  · cases e
    exact ⟨trivial, fun p hp => by rw [List.mem_singleton.1 hp]; exact attached_iff.2 rfl⟩
  · cases e
  · simp at e

theorem tower_one_groups : groups (runOps (tower 1) {}) 0 = [0, 1] := by decide +kernel

/-- In a prior and a posterior, expressions have a value, in both measures. -/
theorem tower_runs {e : PyExpr} (hg : ∀ p ∈ e.vars, p = 0) (hk : e.kind = some .gp) (hd : e.Divides) (he : e.Everywhere) :
    ∃ r l, e.eval (fun _ => [0, 1]) (tower 1) = .ok (.gp r) l ∧ RunsExpr l (tower 1) (fun _ => [0, 1]) e r ∧
      Attached (runOps l {}) 0 r ∧ Attached (runOps l {}) 1 r ∧ Solid (off fun _ => False) l := by
  obtain ⟨v, l, h⟩ := C51_returns (e := e) (g := [0, 1]) (ord := fun _ => [0, 1]) tower_one_proper (by simp) (fun _ => ⟨.refl _, rfl⟩)
    (fun p hp => by rw [hg p hp, tower_one_groups]; exact ⟨.refl _, rfl⟩) (by rw [hk]; rfl) hd
  have hk' := C51_kind h
  rw [hk, Option.some.injEq] at hk'
  cases v with
  | num c => cases hk'
  | fn f => cases hk'
  | gp r =>
    have hm := C51_measures (e := e) (fun p hp => by rw [hg p hp]; exact groups_lt (by rw [tower_one_groups]; simp)) h
    have hm' : ∀ m ∈ [0, 1], Attached (runOps l {}) m r := fun m h => (hm m).2 fun p hp => by
      rw [hg p hp, (C32_consistent _).1, tower_one_groups]; exact h
    refine ⟨r, l, h, ⟨l, [], h, by simp, List.ne_nil_of_mem (((C32_consistent l).1 0 r).1 (hm' 0 (by simp)))⟩, hm' 0 (by simp), hm' 1 (by simp), ?_⟩
    exact (C51_calls (e := e) (tower_solid 1) (fun _ _ => id) (fun _ _ => id) he h).1

/-- Under the posterior, the mean is the same expression in the posterior mean, and the covariance with the process itself is the same expression in
the posterior kernel, without what was added. -/
example : ∃ r l, blend.eval (fun _ => [0, 1]) (tower 1) = .ok (.gp r) l ∧ ∀ (μ : Pt → ℝ) (κ : Pt → Pt → ℝ),
    (∀ y, MeanCall (runOps l {}) 1 0 (.num [y]) [μ y]) → (∀ y z A, KernelCall (runOps l {}) 1 0 0 (.num [y]) (.num [z]) A → A.e 0 0 = κ y z) →
    ∀ x y, MeanCall (runOps l {}) 1 r (.num [x]) [(2 * μ x - μ (x.map (· - 1))) / 4 + x.sum] ∧
      ∀ A, KernelCall (runOps l {}) 1 r 0 (.num [x]) (.num [y]) A → A.e 0 0 = (2 * κ x y - κ (x.map (· - 1)) y) / 4 := by
  obtain ⟨r, l, h, hr, -, h1, hs⟩ := tower_runs (e := blend) (by simp [blend, PyExpr.vars]) rfl
    ⟨⟨⟨⟨trivial, trivial⟩, trivial⟩, trivial, fun _ => (by norm_num : (4 : ℝ) ≠ 0)⟩, trivial⟩
    ⟨⟨⟨⟨trivial, trivial⟩, trivial, trivial⟩, trivial⟩, trivial⟩
  have hl : blend.Linear := by simp [blend, PyExpr.Linear, PyExpr.random]
  refine ⟨r, l, h, fun μ κ hμ hκ x y => ⟨?_, fun A hA => ?_⟩⟩
  · have := C51_mean hs.regular hr hl h1 (fun _ => μ) (fun p hp y _ => by
      have : p = 0 := by simpa [blend, PyExpr.vars] using hp
      rw [this]; exact hμ y) (xs := [x]) (rows_off id)
    convert this using 2
    simp [blend, PyExpr.value, PyExpr.random, PyExpr.fixed, Move.row]
    ring
  · have hv : ∀ p ∈ blend.vars, p = 0 := by simp [blend, PyExpr.vars]
    have h0 : Attached (runOps l {}) 1 0 := (hs.regular.express hr hl h1 (xs := []) (rows_off id)).1 0 (by simp [blend, PyExpr.vars])
    have := C51_kernel hs.regular hr hl h1 (ord' := fun _ => []) (.var h0) trivial h0
      (fun _ _ => κ) (fun p hp q hq y z _ _ A hA => by
        rw [hv p hp, List.mem_singleton.1 hq] at hA; exact hκ y z A hA) (xs := [x]) (ys := [y]) (rows_off id) (rows_off id) hA
    rw [this.2.2 0 0 (by simp) (by simp)]
    simp [blend, PyExpr.value, PyExpr.random, PyExpr.fixed, Move.row]
    ring

/-- `2 * f - f` is `f`, under the prior and under the posterior. -/
example : ∃ r l, (PyExpr.sub (.mul (.num 2) (.var 0)) (.var 0)).eval (fun _ => [0, 1]) (tower 1) = .ok (.gp r) l ∧ ∀ m ∈ [0, 1], ∀ xs ys,
    (∀ v, MeanCall (runOps l {}) m r (.num xs) v ↔ MeanCall (runOps l {}) m 0 (.num xs) v) ∧
    ∀ A B, KernelCall (runOps l {}) m r r (.num xs) (.num ys) A → KernelCall (runOps l {}) m 0 r (.num xs) (.num ys) B → A.Eqv B := by
  obtain ⟨r, l, h, hr, h0, h1, hs⟩ := tower_runs (e := .sub (.mul (.num 2) (.var 0)) (.var 0)) (by simp [PyExpr.vars]) rfl
    ⟨⟨trivial, trivial⟩, trivial⟩ ⟨⟨trivial, trivial⟩, trivial⟩
  refine ⟨r, l, h, fun m hm xs ys => ?_⟩
  have hl : (PyExpr.sub (.mul (.num 2) (.var 0)) (.var 0)).Linear := by simp [PyExpr.Linear, PyExpr.random]
  have hm : Attached (runOps l {}) m r := by
    simp only [List.mem_cons, List.not_mem_nil, or_false] at hm
    rcases hm with rfl | rfl
    · exact h0
    · exact h1
  have hv := (hs.regular.express hr hl hm (xs := [[]]) (rows_off id)).1 0 (by simp [PyExpr.vars])
  have := C51_equal hs.regular hr hl hm (.var (ord := fun _ => []) hv) trivial hv (fun V _ _ one F x => by
    simp [PyExpr.value, PyExpr.random, PyExpr.fixed, two_smul]) (xs := xs) (rows_off id) (rows_off id)
  exact ⟨this.1, this.2 r hm ys (rows_off id)⟩

/-- The difference of a process and a function raises a `TypeError`; and so does the quotient. -/
example (f : Pt → ℝ) : (PyExpr.sub (.var 0) (.fn f)).eval (fun _ => [0, 1]) (tower 1) = .error .type (tower 1) ∧
    (PyExpr.div (.var 0) (.fn f)).eval (fun _ => [0, 1]) (tower 1) = .error .type (tower 1) ∧
    (PyExpr.div (.var 0) (.num 0)).eval (fun _ => [0, 1]) (tower 1) = .error .zeroDivision (tower 1) := by
  have h : (PyExpr.var 0).eval (fun _ => [0, 1]) (tower 1) = .ok (.gp 0) (tower 1) :=
    bind_run (show existing 0 (tower 1) = .ok 0 (tower 1) from if_pos (groups_lt (by rw [tower_one_groups]; simp)))
  exact ⟨C51_sub_function f h, (C51_division _ rfl h).1 nofun, (C51_division _ rfl h).2 rfl⟩

end Stheno
