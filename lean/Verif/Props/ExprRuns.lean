import Verif.Props.Arith

/-!
# C51: When expressions have a value, and the measures of the value
-/

namespace Stheno

variable {before l : List Op} {ord : PId → List MId} {p q r : PId} {a b e : PyExpr} {u v w : PyVal}

/-! ## Kinds -/

/-- Numbers, functions and processes. -/
inductive PyKind where
  | num
  | fn
  | gp
  deriving DecidableEq

def PyVal.kind : PyVal → PyKind
  | .num _ => .num
  | .fn _ => .fn
  | .gp _ => .gp

/-- `k - k'`. -/
def PyKind.sub : PyKind → PyKind → Option PyKind
  | .num, .num => some .num
  | .num, .gp | .fn, .gp | .gp, .num | .gp, .gp => some .gp
  | .num, .fn | .fn, .num | .fn, .fn | .gp, .fn => none

/-- `k + k'` and `k * k'`. -/
def PyKind.add : PyKind → PyKind → Option PyKind
  | .gp, .fn => some .gp
  | k, k' => k.sub k'

/-- `k / k'`. -/
def PyKind.div : PyKind → PyKind → Option PyKind
  | .num, .num => some .num
  | .gp, .num => some .gp
  | _, _ => none

/-- The kind of an expression, if it has one. -/
def PyExpr.kind : PyExpr → Option PyKind
  | .num _ => some .num
  | .fn _ => some .fn
  | .var _ => some .gp
  | .neg a => a.kind.bind fun k => if k = .fn then none else some k
  | .add a b | .mul a b => a.kind.bind fun k => b.kind.bind k.add
  | .sub a b => a.kind.bind fun k => b.kind.bind k.sub
  | .div a b => a.kind.bind fun k => b.kind.bind k.div
  | .move a _ => a.kind.bind fun k => if k = .gp then some k else none

theorem gpPlus_kind (h : pyAdd ord u v before = .ok w l) : u.kind.add v.kind = some w.kind := by
  cases u <;> cases v <;> first | cases h; rfl | (obtain ⟨_, _, _, h⟩ := mbind_ok h; cases h; rfl) | cases h

theorem pyMul_kind (h : pyMul ord u v before = .ok w l) : u.kind.add v.kind = some w.kind := by
  cases u <;> cases v <;> first | cases h; rfl | (obtain ⟨_, _, _, h⟩ := mbind_ok h; cases h; rfl) | cases h

theorem pyNeg_kind (h : pyNeg ord u before = .ok w l) : w.kind = u.kind ∧ u.kind ≠ .fn := by
  cases u with
  | num c => cases h; exact ⟨rfl, nofun⟩
  | fn f => cases h
  | gp p => obtain ⟨r, rfl, _⟩ := pyNeg_gp h; exact ⟨rfl, nofun⟩

theorem pySub_kind (h : pySub ord u v before = .ok w l) : u.kind.sub v.kind = some w.kind := by
  have key : ∀ {a b : PyVal}, (pyNeg ord a >>= fun n => pyAdd ord b n) before = .ok w l → (b.kind.add a.kind = some w.kind) ∧ a.kind ≠ .fn := by
    intro a b h
    obtain ⟨n, l1, h1, h⟩ := mbind_ok h
    have := gpPlus_kind h
    rw [(pyNeg_kind h1).1] at this
    exact ⟨this, (pyNeg_kind h1).2⟩
  have key' : ∀ {a b : PyVal}, (pyNeg ord a >>= fun n => pyAdd ord n b) before = .ok w l → (a.kind.add b.kind = some w.kind) := by
    intro a b h
    obtain ⟨n, l1, h1, h⟩ := mbind_ok h
    have := gpPlus_kind h
    rwa [(pyNeg_kind h1).1] at this
  cases u with
  | gp p =>
    have := key h
    cases v with
    | fn f => exact (this.2 rfl).elim
    | _ => exact this.1
  | num c =>
    cases v with
    | gp p => exact key' h
    | num d => cases h; rfl
    | fn f => cases h
  | fn f =>
    cases v with
    | gp p => exact key' h
    | num d => cases h
    | fn f => cases h

theorem pyDiv_kind (h : pyDiv ord u v before = .ok w l) : u.kind.div v.kind = some w.kind := by
  cases u with
  | gp p =>
    obtain ⟨n, l1, h1, h2⟩ := mbind_ok (show (pyQuot (.num 1) v >>= fun n => pyMul ord (.gp p) n) before = _ from h)
    obtain ⟨c, d, _, rfl, _, rfl, rfl⟩ := pyQuot_ok h1
    exact pyMul_kind (u := .gp p) (v := .num (c / d)) h2
  | num a => obtain ⟨c, d, h1, rfl, _, rfl, rfl⟩ := pyQuot_ok (u := .num a) (v := v) h; rfl
  | fn f => obtain ⟨c, d, h1, _⟩ := pyQuot_ok (u := .fn f) (v := v) h; cases h1

/-- **C51.** What has a value has the kind of that value. -/
theorem C51_kind (h : e.eval ord before = .ok v l) : e.kind = some v.kind := by
  induction e generalizing before l v with
  | num c => cases h; rfl
  | fn f => cases h; rfl
  | var p => obtain ⟨q, l1, hq, h⟩ := mbind_ok (show (existing p >>= fun q => pure (PyVal.gp q)) before = _ from h); cases h; rfl
  | neg a ih =>
    obtain ⟨u, l1, h1, h⟩ := mbind_ok (show (a.eval ord >>= fun u => pyNeg ord u) before = _ from h)
    obtain ⟨e1, e2⟩ := pyNeg_kind h
    rw [PyExpr.kind, ih h1, Option.bind_some, if_neg e2, e1]
  | add a b ih1 ih2 =>
    obtain ⟨u, l1, h1, h⟩ := mbind_ok (show (a.eval ord >>= fun u => b.eval ord >>= fun v => pyAdd ord u v) before = _ from h)
    obtain ⟨v, l2, h2, h⟩ := mbind_ok h
    rw [PyExpr.kind, ih1 h1, ih2 h2]; exact gpPlus_kind h
  | sub a b ih1 ih2 =>
    obtain ⟨u, l1, h1, h⟩ := mbind_ok (show (a.eval ord >>= fun u => b.eval ord >>= fun v => pySub ord u v) before = _ from h)
    obtain ⟨v, l2, h2, h⟩ := mbind_ok h
    rw [PyExpr.kind, ih1 h1, ih2 h2]; exact pySub_kind h
  | mul a b ih1 ih2 =>
    obtain ⟨u, l1, h1, h⟩ := mbind_ok (show (a.eval ord >>= fun u => b.eval ord >>= fun v => pyMul ord u v) before = _ from h)
    obtain ⟨v, l2, h2, h⟩ := mbind_ok h
    rw [PyExpr.kind, ih1 h1, ih2 h2]; exact pyMul_kind h
  | div a b ih1 ih2 =>
    obtain ⟨u, l1, h1, h⟩ := mbind_ok (show (a.eval ord >>= fun u => b.eval ord >>= fun v => pyDiv ord u v) before = _ from h)
    obtain ⟨v, l2, h2, h⟩ := mbind_ok h
    rw [PyExpr.kind, ih1 h1, ih2 h2]; exact pyDiv_kind h
  | move a t ih =>
    obtain ⟨u, l1, h1, h⟩ := mbind_ok (show (a.eval ord >>= fun u => pyMove t u) before = _ from h)
    rw [PyExpr.kind, ih h1]
    cases u with
    | gp p => obtain ⟨r, l3, hr, h⟩ := mbind_ok (show (perform (.pre p t.tr) >>= fun r => pure (PyVal.gp r)) l1 = _ from h); cases h; rfl
    | _ => cases h

/-- **C51.** Expressions without a kind have no value: an exception is raised. -/
theorem C51_no_kind (h : e.kind = none) (v : PyVal) (l : List Op) : e.eval ord before ≠ .ok v l := fun hv => by
  rw [C51_kind hv] at h; cases h

example (p : PId) (f : Pt → ℝ) : (PyExpr.sub (.var p) (.fn f)).kind = none ∧ (PyExpr.sub (.fn f) (.var p)).kind = some .gp ∧
    (PyExpr.add (.var p) (.fn f)).kind = some .gp ∧ (PyExpr.div (.var p) (.fn f)).kind = none ∧ (PyExpr.div (.num 1) (.var p)).kind = none :=
  ⟨rfl, rfl, rfl, rfl, rfl⟩

theorem bind_run {σ α β : Type} {c : EStateM Err σ α} {f : α → EStateM Err σ β} {w w' : σ} {u : α} (h : c w = .ok u w') :
    (c >>= f) w = f u w' := by
  change EStateM.bind c f w = _
  unfold EStateM.bind
  rw [h]

/-- **C51.** Subtracting a function from a process raises a `TypeError`, because `-f` is computed first, although functions can be added to
processes and processes can be subtracted from functions. No process is made. -/
theorem C51_sub_function (f : Pt → ℝ) (h : a.eval ord before = .ok (.gp p) l) : (PyExpr.sub a (.fn f)).eval ord before = .error .type l := by
  show (a.eval ord >>= fun u => (PyExpr.fn f).eval ord >>= fun v => pySub ord u v) before = _
  rw [bind_run h]
  rfl

/-- **C51.** Dividing by a function or by a process raises a `TypeError`, and dividing by zero a `ZeroDivisionError`. -/
theorem C51_division (l' : List Op) (hb : b.eval ord l = .ok v l') (h : a.eval ord before = .ok (.gp p) l) :
    (v.kind ≠ .num → (PyExpr.div a b).eval ord before = .error .type l') ∧
    (v = .num 0 → (PyExpr.div a b).eval ord before = .error .zeroDivision l') := by
  have e : (PyExpr.div a b).eval ord before = pyDiv ord (.gp p) v l' := by
    show (a.eval ord >>= fun u => b.eval ord >>= fun v => pyDiv ord u v) before = _
    rw [bind_run h, bind_run hb]
  rw [e]
  refine ⟨fun hk => ?_, ?_⟩
  · cases v with
    | num c => exact (hk rfl).elim
    | fn f => rfl
    | gp q => rfl
  · rintro rfl
    show (pyQuot (.num 1) (.num 0) >>= fun n => pyMul ord (.gp p) n) l' = _
    rw [show pyQuot (.num 1) (.num 0) = throw .zeroDivision from if_pos rfl]
    rfl

/-! ## Measures -/

theorem Arith_measures {o : Op} {ps : List PId} {l2 : List Op} {P : MId → Prop} (ho : o.Arith ps) (h : perform o l2 = .ok r l)
    (hP : ∀ m, P m ↔ ∀ p ∈ ps, m ∈ groups (runOps l2 {}) p) (m : MId) : m ∈ groups (runOps l {}) r ↔ P m := by
  rw [(perform_grown ho h).2.2 m, hP m]

theorem pyNeg_measures (h : pyNeg ord (.gp p) before = .ok (.gp r) l) (m : MId) :
    m ∈ groups (runOps l {}) r ↔ m ∈ groups (runOps before {}) p := by
  obtain ⟨_, e, hr⟩ := pyNeg_gp h
  cases e
  exact Arith_measures (o := .scale p (-1)) (ps := [p]) rfl hr (by simp) m

/-- The measures of an operand: numbers and functions are in all. -/
def PyVal.inM (l : List Op) (m : MId) : PyVal → Prop
  | .gp p => m ∈ groups (runOps l {}) p
  | _ => True

theorem pyAdd_measures (h : pyAdd ord u v before = .ok w l) (m : MId) : w.inM l m ↔ u.inM before m ∧ v.inM before m := by
  have key : ∀ (p : PId) (v : PyVal), (gpPlus ord p v >>= fun r => pure (PyVal.gp r)) before = .ok w l →
      (w.inM l m ↔ m ∈ groups (runOps before {}) p ∧ v.inM before m) := by
    intro p v h
    obtain ⟨r, l1, hr, h⟩ := mbind_ok h
    cases h
    cases v with
    | gp q =>
      obtain ⟨o, hr⟩ := gpPlus_gp hr
      exact Arith_measures (P := fun m => m ∈ groups (runOps before {}) p ∧ m ∈ groups (runOps before {}) q) (o := .add p q o) (ps := [p, q]) rfl hr (by simp) m
    | num c => exact Arith_measures (P := fun m => m ∈ groups (runOps before {}) p ∧ True) (o := .addFn p (.const c)) (ps := [p]) rfl hr (by simp) m
    | fn f => exact Arith_measures (P := fun m => m ∈ groups (runOps before {}) p ∧ True) (o := .addFn p (.user f)) (ps := [p]) rfl hr (by simp) m
  cases u with
  | gp p => exact key p v h
  | num c =>
    cases v with
    | gp p => exact (key p (.num c) h).trans and_comm
    | num d => cases h; simp [PyVal.inM]
    | fn f => cases h
  | fn f =>
    cases v with
    | gp p => exact (key p (.fn f) h).trans and_comm
    | num d => cases h
    | fn f => cases h

theorem pyMul_measures (h : pyMul ord u v before = .ok w l) (m : MId) : w.inM l m ↔ u.inM before m ∧ v.inM before m := by
  have key : ∀ (p : PId) (v : PyVal), (gpTimes ord p v >>= fun r => pure (PyVal.gp r)) before = .ok w l →
      (w.inM l m ↔ m ∈ groups (runOps before {}) p ∧ v.inM before m) := by
    intro p v h
    obtain ⟨r, l1, hr, h⟩ := mbind_ok h
    cases h
    cases v with
    | gp q =>
      obtain ⟨o, hr⟩ := gpTimes_gp hr
      exact Arith_measures (P := fun m => m ∈ groups (runOps before {}) p ∧ m ∈ groups (runOps before {}) q) (o := .mul p q o) (ps := [p, q]) rfl hr (by simp) m
    | num c => exact Arith_measures (P := fun m => m ∈ groups (runOps before {}) p ∧ True) (o := .scale p c) (ps := [p]) rfl hr (by simp) m
    | fn f => exact Arith_measures (P := fun m => m ∈ groups (runOps before {}) p ∧ True) (o := .fmul p (.user f)) (ps := [p]) rfl hr (by simp) m
  cases u with
  | gp p => exact key p v h
  | num c =>
    cases v with
    | gp p => exact (key p (.num c) h).trans and_comm
    | num d => cases h; simp [PyVal.inM]
    | fn f => cases h
  | fn f =>
    cases v with
    | gp p => exact (key p (.fn f) h).trans and_comm
    | num d => cases h
    | fn f => cases h

/-- Processes that exist stay in their measures. -/
theorem PyVal.inM_grown {b l : List Op} (h : RanOn b l) (hu : ∀ p, u = .gp p → p < (runOps b {}).gps.length) (m : MId) : u.inM l m ↔ u.inM b m := by
  cases u with
  | gp p => rw [PyVal.inM, PyVal.inM, h.same p (hu p rfl)]
  | _ => exact Iff.rfl

theorem pyNeg_inM (h : pyNeg ord u before = .ok w l) (m : MId) : w.inM l m ↔ u.inM before m := by
  cases u with
  | num c => cases h; exact Iff.rfl
  | fn f => cases h
  | gp p =>
    obtain ⟨r, rfl, hr⟩ := pyNeg_gp h
    exact pyNeg_measures h m

theorem pyNeg_ran (h : pyNeg ord u before = .ok w l) : RanOn before l := by
  cases u with
  | num c => cases h; exact .refl _
  | fn f => cases h
  | gp p =>
    obtain ⟨r, rfl, hr⟩ := pyNeg_gp h
    exact (perform_grown (o := .scale p (-1)) (ps := [p]) rfl hr).1

theorem pySub_measures (hu : ∀ p, u = .gp p → p < (runOps before {}).gps.length) (hv : ∀ p, v = .gp p → p < (runOps before {}).gps.length)
    (h : pySub ord u v before = .ok w l) (m : MId) : w.inM l m ↔ u.inM before m ∧ v.inM before m := by
  have key : ∀ {a b : PyVal}, (∀ p, b = .gp p → p < (runOps before {}).gps.length) →
      (pyNeg ord a >>= fun n => pyAdd ord b n) before = .ok w l → (w.inM l m ↔ b.inM before m ∧ a.inM before m) := by
    intro a b hb h
    obtain ⟨n, l1, h1, h⟩ := mbind_ok h
    rw [pyAdd_measures h, pyNeg_inM h1, PyVal.inM_grown (pyNeg_ran h1) hb]
  have key' : ∀ {a b : PyVal}, (∀ p, b = .gp p → p < (runOps before {}).gps.length) →
      (pyNeg ord a >>= fun n => pyAdd ord n b) before = .ok w l → (w.inM l m ↔ b.inM before m ∧ a.inM before m) := by
    intro a b hb h
    obtain ⟨n, l1, h1, h⟩ := mbind_ok h
    rw [pyAdd_measures h, pyNeg_inM h1, PyVal.inM_grown (pyNeg_ran h1) hb, and_comm]
  cases u with
  | gp p => exact key hu h
  | num c =>
    cases v with
    | gp p => exact key' hu h
    | num d => cases h; simp [PyVal.inM]
    | fn f => cases h
  | fn f =>
    cases v with
    | gp p => exact key' hu h
    | num d => cases h
    | fn f => cases h

theorem pyDiv_measures (h : pyDiv ord u v before = .ok w l) (m : MId) : w.inM l m ↔ u.inM before m ∧ v.inM before m := by
  cases u with
  | gp p =>
    obtain ⟨n, l1, h1, h2⟩ := mbind_ok (show (pyQuot (.num 1) v >>= fun n => pyMul ord (.gp p) n) before = _ from h)
    obtain ⟨c, d, _, rfl, _, rfl, rfl⟩ := pyQuot_ok h1
    exact pyMul_measures (u := .gp p) (v := .num (c / d)) h2 m
  | num a => obtain ⟨c, d, h1, rfl, _, rfl, rfl⟩ := pyQuot_ok (u := .num a) (v := v) h; simp [PyVal.inM]
  | fn f => obtain ⟨c, d, h1, _⟩ := pyQuot_ok (u := .fn f) (v := v) h; cases h1

theorem eval_inM (hv : ∀ p ∈ e.vars, p < (runOps before {}).gps.length) (h : e.eval ord before = .ok v l) (m : MId) :
    v.inM l m ↔ ∀ p ∈ e.vars, m ∈ groups (runOps before {}) p := by
  have two : ∀ {a b : PyExpr} {u v : PyVal} {l0 l1 l2 : List Op}, (∀ p ∈ a.vars ++ b.vars, p < (runOps l0 {}).gps.length) →
      a.eval ord l0 = .ok u l1 → b.eval ord l1 = .ok v l2 →
      (∀ {v l}, (∀ p ∈ a.vars, p < (runOps l0 {}).gps.length) → a.eval ord l0 = .ok v l → (v.inM l m ↔ ∀ p ∈ a.vars, m ∈ groups (runOps l0 {}) p)) →
      (∀ {v l}, (∀ p ∈ b.vars, p < (runOps l1 {}).gps.length) → b.eval ord l1 = .ok v l → (v.inM l m ↔ ∀ p ∈ b.vars, m ∈ groups (runOps l1 {}) p)) →
      (u.inM l2 m ∧ v.inM l2 m ↔ ∀ p ∈ a.vars ++ b.vars, m ∈ groups (runOps l0 {}) p) ∧
      (∀ p, u = .gp p → p < (runOps l2 {}).gps.length) ∧ ∀ p, v = .gp p → p < (runOps l2 {}).gps.length := by
    intro a b u v l0 l1 l2 hp h1 h2 i1 i2
    have s1 := eval_spec h1
    have s2 := eval_spec h2
    have ha : ∀ p ∈ a.vars, p < (runOps l0 {}).gps.length := fun p h => hp p (List.mem_append_left _ h)
    have hb : ∀ p ∈ b.vars, p < (runOps l0 {}).gps.length := fun p h => hp p (List.mem_append_right _ h)
    refine ⟨?_, fun p h => (s1.exists' p h).trans_le s2.grown.len, s2.exists'⟩
    rw [PyVal.inM_grown s2.grown s1.exists', i1 ha h1, i2 (fun p h => (hb p h).trans_le s1.grown.len) h2]
    simp only [List.mem_append, or_imp, forall_and]
    refine and_congr_right fun _ => forall_congr' fun p => imp_congr_right fun h => ?_
    rw [s1.grown.same p (hb p h)]
  induction e generalizing before l v with
  | num c => cases h; simp [PyVal.inM, PyExpr.vars]
  | fn f => cases h; simp [PyVal.inM, PyExpr.vars]
  | var p =>
    obtain ⟨q, l1, hq, h⟩ := mbind_ok (show (existing p >>= fun q => pure (PyVal.gp q)) before = _ from h)
    cases h
    unfold existing at hq
    split at hq
    · cases hq; simp [PyVal.inM, PyExpr.vars]
    · cases hq
  | neg a ih =>
    obtain ⟨u, l1, h1, h⟩ := mbind_ok (show (a.eval ord >>= fun u => pyNeg ord u) before = _ from h)
    exact (pyNeg_inM h m).trans (ih hv h1)
  | add a b ih1 ih2 =>
    obtain ⟨u, l1, h1, h⟩ := mbind_ok (show (a.eval ord >>= fun u => b.eval ord >>= fun v => pyAdd ord u v) before = _ from h)
    obtain ⟨v, l2, h2, h⟩ := mbind_ok h
    rw [pyAdd_measures h, (two hv h1 h2 ih1 ih2).1]; rfl
  | sub a b ih1 ih2 =>
    obtain ⟨u, l1, h1, h⟩ := mbind_ok (show (a.eval ord >>= fun u => b.eval ord >>= fun v => pySub ord u v) before = _ from h)
    obtain ⟨v, l2, h2, h⟩ := mbind_ok h
    have t := two hv h1 h2 ih1 ih2
    rw [pySub_measures t.2.1 t.2.2 h, t.1]; rfl
  | mul a b ih1 ih2 =>
    obtain ⟨u, l1, h1, h⟩ := mbind_ok (show (a.eval ord >>= fun u => b.eval ord >>= fun v => pyMul ord u v) before = _ from h)
    obtain ⟨v, l2, h2, h⟩ := mbind_ok h
    rw [pyMul_measures h, (two hv h1 h2 ih1 ih2).1]; rfl
  | div a b ih1 ih2 =>
    obtain ⟨u, l1, h1, h⟩ := mbind_ok (show (a.eval ord >>= fun u => b.eval ord >>= fun v => pyDiv ord u v) before = _ from h)
    obtain ⟨v, l2, h2, h⟩ := mbind_ok h
    rw [pyDiv_measures h, (two hv h1 h2 ih1 ih2).1]; rfl
  | move a t ih =>
    obtain ⟨u, l1, h1, h⟩ := mbind_ok (show (a.eval ord >>= fun u => pyMove t u) before = _ from h)
    cases u with
    | gp p =>
      obtain ⟨r, l3, hr, h⟩ := mbind_ok (show (perform (.pre p t.tr) >>= fun r => pure (PyVal.gp r)) l1 = _ from h)
      cases h
      have := Arith_measures (P := fun m => m ∈ groups (runOps l1 {}) p) (o := .pre p t.tr) (ps := [p]) rfl hr (by simp) m
      exact this.trans (ih hv h1)
    | _ => cases h

/-- **C51.** The result of an expression is in exactly the measures that all processes in the expression are in, whatever the intermediate results
are. -/
theorem C51_measures (hv : ∀ p ∈ e.vars, p < (runOps before {}).gps.length) (h : e.eval ord before = .ok (.gp r) l) (m : MId) :
    Attached (runOps l {}) m r ↔ ∀ p ∈ e.vars, Attached (runOps before {}) m p := by
  rw [(C32_consistent l).1, show m ∈ groups (runOps l {}) r ↔ _ from eval_inM hv h m]
  exact forall_congr' fun p => imp_congr_right fun _ => ((C32_consistent before).1 m p).symm

/-! ## Evaluation returns -/

/-- Nothing is divided by zero. -/
def PyExpr.Divides : PyExpr → Prop
  | .num _ | .fn _ | .var _ => True
  | .neg a | .move a _ => a.Divides
  | .add a b | .sub a b | .mul a b => a.Divides ∧ b.Divides
  | .div a b => a.Divides ∧ b.Divides ∧ ∀ x, b.fixed x ≠ 0

/-- The list of measures of a process: it has the measures `g`, and the primary measure is the first of `g`. -/
def InGroup (g : List MId) (ms : List MId) : Prop := ms.Perm g ∧ ms.head? = g.head?

theorem InGroup.ne_nil {g ms : List MId} (h : InGroup g ms) (hg : g ≠ []) : ms ≠ [] := fun e => hg (by rw [e] at h; exact h.1.symm.eq_nil)

/-- A value in the group `g`. -/
structure PyVal.Good (g : List MId) (l : List Op) (v : PyVal) : Prop where
  gp : ∀ p, v = .gp p → InGroup g (groups (runOps l {}) p)

theorem mul_groups {o : List MId} (hr : (Op.mul p q o).raises (runOps before {}) = none) :
    groups (runOps (before ++ [.mul p q o]) {}) (runOps before {}).gps.length = o := by
  have hi := Inv.reach before
  have hi' := (hi.after (.mul p q o)).1
  obtain ⟨v, hv⟩ := forget_ok (hi.ok hr)
  obtain ⟨_, _, _, e⟩ := aGpMul_ok hv
  rw [groups, after_eq, hi'.rel.gps, hi.rel.gps, e, foldl_mulPush_gps _ (by simp [AWorld.new]) (by simp [AWorld.new]), if_pos rfl, AWorld.new]
  simp

theorem perform_of {o : Op} (hr : o.raises (runOps before {}) = none) : perform o before = .ok (runOps before {}).gps.length (before ++ [o]) := by
  unfold Op.raises at hr
  unfold perform
  split at hr
  · next e => rw [e]
  · cases hr

section
variable {g : List MId}

/-- Running went well. -/
structure Went (g : List MId) (c : PyM PyVal) (before : List Op) : Prop where
  run : ∃ v l, c before = .ok v l ∧ Proper l ∧ v.Good g l ∧ RanOn before l

theorem went_unary {o : Op} (h : Proper before) (hg : g ≠ []) (hp : InGroup g (groups (runOps before {}) p)) (ho : o.unaryOn = some p)
    (ho' : o.Arith [p]) (hs : o.Simple) : Went g (perform o >>= fun r => pure (PyVal.gp r)) before := by
  have hr := C32_succeeds_unary before h o p ho (hp.ne_nil hg)
  have hp' := perform_of hr
  refine ⟨.gp _, _, by rw [bind_run hp']; rfl, proper_append h (by simpa using hs), ⟨fun r e => ?_⟩, (perform_grown ho' hp').1⟩
  cases e
  rw [groups, unary_gps ho hr]
  simpa using hp

theorem went_binary {o : Op} {os : List MId} (h : Proper before) (hg : g ≠ []) (hp : InGroup g (groups (runOps before {}) p))
    (hq : InGroup g (groups (runOps before {}) q)) (hos : InGroup g os) (ho : o = .add p q os ∨ o = .mul p q os) :
    Went g (perform o >>= fun r => pure (PyVal.gp r)) before := by
  obtain ⟨m, hm⟩ : ∃ m, g.head? = some m := by
    cases g with
    | nil => exact (hg rfl).elim
    | cons a g => exact ⟨a, rfl⟩
  have hnd : os.Nodup := (hos.1.trans hp.1.symm).nodup_iff.2 ((C32_consistent before).2.1 p)
  have hmem : ∀ m, m ∈ os ↔ m ∈ groups (runOps before {}) p ∧ ∀ r ∈ [q], m ∈ groups (runOps before {}) r := fun m => by
    simp [hos.1.mem_iff, hp.1.mem_iff, hq.1.mem_iff]
  have := (C32_succeeds before h p [q] m os (hp.2.trans hm) (by simpa using hq.2.trans hm) hnd hmem).2 q rfl
  rcases ho with rfl | rfl
  · have hp' := perform_of this.1
    refine ⟨.gp _, _, by rw [bind_run hp']; rfl, proper_append h (by simp [Op.Simple]), ⟨fun r e => ?_⟩,
      (perform_grown (o := .add p q os) (ps := [p, q]) rfl hp').1⟩
    cases e
    rw [groups, add_gps this.1]
    simpa using hos
  · have hp' := perform_of this.2
    refine ⟨.gp _, _, by rw [bind_run hp']; rfl, proper_append h (by simp [Op.Simple]), ⟨fun r e => ?_⟩,
      (perform_grown (o := .mul p q os) (ps := [p, q]) rfl hp').1⟩
    cases e
    rw [mul_groups this.2]
    exact hos

theorem went_num {c : ℝ} (h : Proper before) : Went g (pure (.num c)) before := ⟨_, _, rfl, h, ⟨nofun⟩, .refl _⟩

theorem went_plus (h : Proper before) (hg : g ≠ []) (ho : ∀ r, InGroup g (ord r)) (hp : InGroup g (groups (runOps before {}) p))
    (hv : v.Good g before) : Went g (gpPlus ord p v >>= fun r => pure (PyVal.gp r)) before := by
  cases v with
  | num c => exact went_unary (o := .addFn p (.const c)) h hg hp rfl rfl trivial
  | fn f => exact went_unary (o := .addFn p (.user f)) h hg hp rfl rfl trivial
  | gp q =>
    obtain ⟨w, l, e, h⟩ := (went_binary h hg hp (hv.gp q rfl) (ho (runOps before {}).gps.length) (.inl rfl)).run
    exact ⟨w, l, e, h⟩

theorem went_times (h : Proper before) (hg : g ≠ []) (ho : ∀ r, InGroup g (ord r)) (hp : InGroup g (groups (runOps before {}) p))
    (hv : v.Good g before) : Went g (gpTimes ord p v >>= fun r => pure (PyVal.gp r)) before := by
  cases v with
  | num c => exact went_unary (o := .scale p c) h hg hp rfl rfl trivial
  | fn f => exact went_unary (o := .fmul p (.user f)) h hg hp rfl rfl trivial
  | gp q =>
    obtain ⟨w, l, e, h⟩ := (went_binary h hg hp (hv.gp q rfl) (ho (runOps before {}).gps.length) (.inr rfl)).run
    exact ⟨w, l, e, h⟩

variable {k : PyKind} (h : Proper before) (hg : g ≠ []) (ho : ∀ r, InGroup g (ord r)) (hu : u.Good g before)
include h hg ho hu

theorem went_add (hv : v.Good g before) (hk : u.kind.add v.kind = some k) : Went g (pyAdd ord u v) before := by
  cases u with
  | gp p => exact went_plus h hg ho (hu.gp p rfl) hv
  | num c =>
    cases v with
    | gp p => exact went_plus h hg ho (hv.gp p rfl) hu
    | num d => exact went_num h
    | fn f => cases hk
  | fn f =>
    cases v with
    | gp p => exact went_plus h hg ho (hv.gp p rfl) hu
    | num d => cases hk
    | fn f => cases hk

theorem went_mul (hv : v.Good g before) (hk : u.kind.add v.kind = some k) : Went g (pyMul ord u v) before := by
  cases u with
  | gp p => exact went_times h hg ho (hu.gp p rfl) hv
  | num c =>
    cases v with
    | gp p => exact went_times h hg ho (hv.gp p rfl) hu
    | num d => exact went_num h
    | fn f => cases hk
  | fn f =>
    cases v with
    | gp p => exact went_times h hg ho (hv.gp p rfl) hu
    | num d => cases hk
    | fn f => cases hk

theorem went_neg (hk : u.kind ≠ .fn) : Went g (pyNeg ord u) before := by
  cases u with
  | num c => exact went_num h
  | fn f => exact (hk rfl).elim
  | gp p => exact went_times (v := .num (-1)) h hg ho (hu.gp p rfl) ⟨nofun⟩

end

theorem PyVal.Good.grown {g : List MId} {b l : List Op} (hg : g ≠ []) (hv : v.Good g b) (h : RanOn b l) : v.Good g l :=
  ⟨fun p e => by rw [h.same p (groups_lt ((hv.gp p e).ne_nil hg))]; exact hv.gp p e⟩

section
variable {g : List MId} {k : PyKind} (h : Proper before) (hg : g ≠ []) (ho : ∀ r, InGroup g (ord r)) (hu : u.Good g before)
include h hg ho hu

theorem went_sub (hv : v.Good g before) (hk : u.kind.sub v.kind = some k) : Went g (pySub ord u v) before := by
  have key : ∀ {a b : PyVal}, a.Good g before → b.Good g before → a.kind ≠ .fn → b.kind.add a.kind = some k →
      Went g (pyNeg ord a >>= fun n => pyAdd ord b n) before := by
    intro a b ga gb ha hk
    obtain ⟨n, l1, e1, p1, g1, r1⟩ := (went_neg (ord := ord) h hg ho ga ha).run
    obtain ⟨v, l2, e2, p2, g2, r2⟩ := (went_add (ord := ord) p1 hg ho (gb.grown hg r1) g1 (by rw [(pyNeg_kind e1).1]; exact hk)).run
    exact ⟨v, l2, by rw [bind_run e1, e2], p2, g2, r1.trans r2⟩
  have key' : ∀ {a b : PyVal}, a.Good g before → b.Good g before → a.kind ≠ .fn → a.kind.add b.kind = some k →
      Went g (pyNeg ord a >>= fun n => pyAdd ord n b) before := by
    intro a b ga gb ha hk
    obtain ⟨n, l1, e1, p1, g1, r1⟩ := (went_neg (ord := ord) h hg ho ga ha).run
    obtain ⟨v, l2, e2, p2, g2, r2⟩ := (went_add (ord := ord) p1 hg ho g1 (gb.grown hg r1) (by rw [(pyNeg_kind e1).1]; exact hk)).run
    exact ⟨v, l2, by rw [bind_run e1, e2], p2, g2, r1.trans r2⟩
  cases u with
  | gp p =>
    cases v with
    | gp q => exact key hv hu nofun hk
    | num c => exact key hv hu nofun hk
    | fn f => cases hk
  | num c =>
    cases v with
    | gp p => exact key' hv hu nofun hk
    | num d => exact went_num h
    | fn f => cases hk
  | fn f =>
    cases v with
    | gp p => exact key' hv hu nofun hk
    | num d => cases hk
    | fn f => cases hk

theorem went_div (hk : u.kind.div v.kind = some k) (hd : v ≠ .num 0) : Went g (pyDiv ord u v) before := by
  have q : ∀ a b : ℝ, b ≠ 0 → pyQuot (.num a) (.num b) before = .ok (.num (a / b)) before := fun a b hb => by
    rw [show pyQuot (.num a) (.num b) = pure (.num (a / b)) from if_neg hb]; rfl
  cases u with
  | gp p =>
    cases v with
    | num c =>
      obtain ⟨v, l2, e2, p2, g2, r2⟩ := (went_times (v := .num (1 / c)) h hg ho (hu.gp p rfl) ⟨nofun⟩).run
      exact ⟨v, l2, (bind_run (q 1 c fun e => hd (by rw [e]))).trans e2, p2, g2, r2⟩
    | _ => cases hk
  | num a =>
    cases v with
    | num c => exact ⟨_, _, q a c fun e => hd (by rw [e]), h, ⟨nofun⟩, .refl _⟩
    | _ => cases hk
  | fn f => cases v <;> cases hk

end

/-- **C51.** Evaluation returns if the expression has a kind, nothing is divided by zero, all processes in the expression are in the same measures
`g` with the same primary measure, and Python iterates over the set `g` in orders that begin with the primary measure. (The order of a set of
measures is arbitrary in Python; see `C32_primary_depends_on_order`. With one measure there is one order.) -/
theorem C51_returns {g : List MId} (h : Proper before) (hg : g ≠ []) (ho : ∀ r, InGroup g (ord r))
    (hv : ∀ p ∈ e.vars, InGroup g (groups (runOps before {}) p)) (hk : e.kind.isSome = true) (hd : e.Divides) :
    ∃ v l, e.eval ord before = .ok v l := by
  suffices Went g (e.eval ord) before by
    obtain ⟨v, l, e, _⟩ := this.run
    exact ⟨v, l, e⟩
  have grow : ∀ {b l : List Op} {vs : List PId}, RanOn b l → (∀ p ∈ vs, InGroup g (groups (runOps b {}) p)) → ∀ p ∈ vs,
      InGroup g (groups (runOps l {}) p) := fun hr hv p hp => by
    rw [hr.same p (groups_lt ((hv p hp).ne_nil hg))]; exact hv p hp
  have kinds : ∀ {f : PyKind → PyKind → Option PyKind} {a b : PyExpr}, ((a.kind.bind fun k => b.kind.bind (f k)).isSome = true) →
      ∃ k k' k'', a.kind = some k ∧ b.kind = some k' ∧ f k k' = some k'' := by
    intro f a b hk
    cases ea : a.kind with
    | none => rw [ea] at hk; cases hk
    | some k =>
      cases eb : b.kind with
      | none => rw [ea, eb] at hk; cases hk
      | some k' =>
        rw [ea, eb] at hk
        obtain ⟨k'', e⟩ := Option.isSome_iff_exists.1 hk
        exact ⟨k, k', k'', rfl, rfl, e⟩
  have two : ∀ {f : PyKind → PyKind → Option PyKind} {c : PyVal → PyVal → PyM PyVal} {a b : PyExpr} {before : List Op}, Proper before →
      (∀ p ∈ a.vars ++ b.vars, InGroup g (groups (runOps before {}) p)) → ((a.kind.bind fun k => b.kind.bind (f k)).isSome = true) →
      (∀ {before}, Proper before → (∀ p ∈ a.vars, InGroup g (groups (runOps before {}) p)) → a.kind.isSome = true → Went g (a.eval ord) before) →
      (∀ {before}, Proper before → (∀ p ∈ b.vars, InGroup g (groups (runOps before {}) p)) → b.kind.isSome = true → Went g (b.eval ord) before) →
      (∀ {u v l1 l2 k}, a.eval ord before = .ok u l1 → b.eval ord l1 = .ok v l2 → Proper l2 → u.Good g l2 → v.Good g l2 →
        f u.kind v.kind = some k → Went g (c u v) l2) →
      Went g (a.eval ord >>= fun u => b.eval ord >>= fun v => c u v) before := by
    intro f c a b before h hv hk i1 i2 hc
    obtain ⟨k, k', k'', ka, kb, kf⟩ := kinds hk
    obtain ⟨u, l1, e1, p1, g1, r1⟩ := (i1 h (fun p hp => hv p (List.mem_append_left _ hp)) (by rw [ka]; rfl)).run
    obtain ⟨v, l2, e2, p2, g2, r2⟩ := (i2 p1 (grow r1 fun p hp => hv p (List.mem_append_right _ hp)) (by rw [kb]; rfl)).run
    have ku := C51_kind e1
    have kv := C51_kind e2
    rw [ka, Option.some.injEq] at ku
    rw [kb, Option.some.injEq] at kv
    obtain ⟨w, l3, e3, p3, g3, r3⟩ := (hc e1 e2 p2 (g1.grown hg r2) g2 (by rw [← ku, ← kv]; exact kf)).run
    exact ⟨w, l3, by rw [bind_run e1, bind_run e2, e3], p3, g3, (r1.trans r2).trans r3⟩
  induction e generalizing before with
  | num c => exact went_num h
  | fn f => exact ⟨_, _, rfl, h, ⟨nofun⟩, .refl _⟩
  | var p =>
    have hp := hv p (by simp [PyExpr.vars])
    refine ⟨.gp p, before, ?_, h, ⟨fun q e => by cases e; exact hp⟩, .refl _⟩
    exact bind_run (show existing p before = .ok p before from if_pos (groups_lt (hp.ne_nil hg)))
  | neg a ih =>
    cases ka : a.kind with
    | none => rw [PyExpr.kind, ka] at hk; cases hk
    | some k =>
      rw [PyExpr.kind, ka] at hk
      obtain ⟨u, l1, e1, p1, g1, r1⟩ := (ih h hv (by rw [ka]; rfl) hd).run
      have ku := C51_kind e1
      rw [ka, Option.some.injEq] at ku
      obtain ⟨w, l3, e3, p3, g3, r3⟩ := (went_neg (ord := ord) p1 hg ho g1 (by rintro e; rw [ku, e] at hk; cases hk)).run
      exact ⟨w, l3, (bind_run e1).trans e3, p3, g3, r1.trans r3⟩
  | add a b ih1 ih2 =>
    exact two h hv hk (fun h hv hk => ih1 h hv hk hd.1) (fun h hv hk => ih2 h hv hk hd.2) fun _ _ p gu gv kf => went_add p hg ho gu gv kf
  | sub a b ih1 ih2 =>
    exact two h hv hk (fun h hv hk => ih1 h hv hk hd.1) (fun h hv hk => ih2 h hv hk hd.2) fun _ _ p gu gv kf => went_sub p hg ho gu gv kf
  | mul a b ih1 ih2 =>
    exact two h hv hk (fun h hv hk => ih1 h hv hk hd.1) (fun h hv hk => ih2 h hv hk hd.2) fun _ _ p gu gv kf => went_mul p hg ho gu gv kf
  | div a b ih1 ih2 =>
    refine two h hv hk (fun h hv hk => ih1 h hv hk hd.1) (fun h hv hk => ih2 h hv hk hd.2.1) fun _ e2 p gu gv kf => went_div p hg ho gu kf ?_
    rintro rfl
    exact hd.2.2 [] ((eval_spec e2).is.2 [])
  | move a t ih =>
    cases ka : a.kind with
    | none => rw [PyExpr.kind, ka] at hk; cases hk
    | some k =>
      rw [PyExpr.kind, ka] at hk
      obtain ⟨u, l1, e1, p1, g1, r1⟩ := (ih h hv (by rw [ka]; rfl) hd).run
      have ku := C51_kind e1
      rw [ka, Option.some.injEq] at ku
      subst ku
      cases u with
      | gp p =>
        obtain ⟨w, l3, e3, p3, g3, r3⟩ := (went_unary (o := .pre p t.tr) p1 hg (g1.gp p rfl) rfl rfl trivial).run
        exact ⟨w, l3, (bind_run e1).trans e3, p3, g3, r1.trans r3⟩
      | num c => cases hk
      | fn f => cases hk

end Stheno
