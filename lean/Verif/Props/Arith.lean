import Verif.Arith
import Verif.Props.Approx

/-!
# C51: Expressions mean what they say
-/

namespace Stheno

/-! ## The meaning of expressions -/

/-- An expression with processes in it. -/
def PyExpr.random : PyExpr → Bool
  | .num _ | .fn _ => false
  | .var _ => true
  | .neg a | .move a _ => a.random
  | .add a b | .sub a b | .mul a b | .div a b => a.random || b.random

/-- What a method does to a row of the input. -/
noncomputable def Move.row : Move → Pt → Pt
  | .shift c, x => x.map (· - c)
  | .shifts cs, x => List.zipWith (· - ·) x cs
  | .stretch c, x => x.map (· / c)
  | .stretches cs, x => List.zipWith (· / ·) x cs
  | .select dims, x => dims.map (x.getD · 0)
  | .transform g, x => g x

/-- The number that an expression without processes is at `x`. -/
noncomputable def PyExpr.fixed : PyExpr → Pt → ℝ
  | .num c, _ => c
  | .fn f, x => f x
  | .var _, _ => 0
  | .neg a, x => -a.fixed x
  | .add a b, x => a.fixed x + b.fixed x
  | .sub a b, x => a.fixed x - b.fixed x
  | .mul a b, x => a.fixed x * b.fixed x
  | .div a b, x => a.fixed x / b.fixed x
  | .move a t, x => a.fixed (t.row x)

section
variable {V : Type} [AddCommGroup V] [Module ℝ V]

/-- What an expression is at `x`, if `F p` is the process `p` and `one` is the constant one. -/
noncomputable def PyExpr.value (one : V) (F : PId → Pt → V) : PyExpr → Pt → V
  | .num c, _ => c • one
  | .fn f, x => f x • one
  | .var p, x => F p x
  | .neg a, x => -a.value one F x
  | .add a b, x => a.value one F x + b.value one F x
  | .sub a b, x => a.value one F x - b.value one F x
  | .mul a b, x => if a.random then b.fixed x • a.value one F x else a.fixed x • b.value one F x
  | .div a b, x => (b.fixed x)⁻¹ • a.value one F x
  | .move a t, x => a.value one F (t.row x)

end

/-- Two processes are not multiplied. -/
def PyExpr.Linear : PyExpr → Prop
  | .num _ | .fn _ | .var _ => True
  | .neg a | .move a _ => a.Linear
  | .add a b | .sub a b | .div a b => a.Linear ∧ b.Linear
  | .mul a b => a.Linear ∧ b.Linear ∧ ¬ (a.random = true ∧ b.random = true)

/-- Where processes are needed to know the expression at `x`. -/
noncomputable def PyExpr.needs : PyExpr → Pt → List (PId × Pt)
  | .num _, _ | .fn _, _ => []
  | .var p, x => [(p, x)]
  | .neg a, x => a.needs x
  | .add a b, x | .sub a b, x | .mul a b, x | .div a b, x => a.needs x ++ b.needs x
  | .move a t, x => a.needs (t.row x)

/-- The processes in an expression. -/
def PyExpr.vars : PyExpr → List PId
  | .num _ | .fn _ => []
  | .var p => [p]
  | .neg a | .move a _ => a.vars
  | .add a b | .sub a b | .mul a b | .div a b => a.vars ++ b.vars

/-- The expression `e` was evaluated after `before`, which gave the process `r` in at least one measure, and it is in the program `ops`. -/
structure RunsExpr (ops before : List Op) (ord : PId → List MId) (e : PyExpr) (r : PId) : Prop where
  run : ∃ l after, e.eval ord before = .ok (.gp r) l ∧ ops = l ++ after ∧ groups (runOps l {}) r ≠ []

/-! ## Values of subexpressions -/

/-- `v` is a number or function. -/
def PyVal.Is (e : PyExpr) : PyVal → Prop
  | .num c => e.random = false ∧ ∀ x, e.fixed x = c
  | .fn f => e.random = false ∧ ∀ x, e.fixed x = f x
  | .gp _ => e.random = true

/-- How a process was made that is the value of an expression. -/
inductive ExprMade (ops : List Op) : PyExpr → PId → Prop
  | var {p} : ExprMade ops (.var p) p
  | neg {a p r b1} : ExprMade ops a p → Runs ops b1 (.scale p (-1)) r → ExprMade ops (.neg a) r
  | add {a b p q r b1 o} : ExprMade ops a p → ExprMade ops b q → Runs ops b1 (.add p q o) r → ExprMade ops (.add a b) r
  | addNum {a b p c r b1} : ExprMade ops a p → (PyVal.num c).Is b → Runs ops b1 (.addFn p (.const c)) r → ExprMade ops (.add a b) r
  | addFn {a b p f r b1} : ExprMade ops a p → (PyVal.fn f).Is b → Runs ops b1 (.addFn p (.user f)) r → ExprMade ops (.add a b) r
  | numAdd {a b p c r b1} : (PyVal.num c).Is a → ExprMade ops b p → Runs ops b1 (.addFn p (.const c)) r → ExprMade ops (.add a b) r
  | fnAdd {a b p f r b1} : (PyVal.fn f).Is a → ExprMade ops b p → Runs ops b1 (.addFn p (.user f)) r → ExprMade ops (.add a b) r
  | sub {a b p q n r b1 b2 o} : ExprMade ops a p → ExprMade ops b q → Runs ops b1 (.scale q (-1)) n → Runs ops b2 (.add p n o) r →
      ExprMade ops (.sub a b) r
  | subNum {a b p c r b1} : ExprMade ops a p → (PyVal.num c).Is b → Runs ops b1 (.addFn p (.const (-c))) r → ExprMade ops (.sub a b) r
  | numSub {a b p c n r b1 b2} : (PyVal.num c).Is a → ExprMade ops b p → Runs ops b1 (.scale p (-1)) n → Runs ops b2 (.addFn n (.const c)) r →
      ExprMade ops (.sub a b) r
  | fnSub {a b p f n r b1 b2} : (PyVal.fn f).Is a → ExprMade ops b p → Runs ops b1 (.scale p (-1)) n → Runs ops b2 (.addFn n (.user f)) r →
      ExprMade ops (.sub a b) r
  | mul {a b p q r b1 o} : ExprMade ops a p → ExprMade ops b q → Runs ops b1 (.mul p q o) r → ExprMade ops (.mul a b) r
  | mulNum {a b p c r b1} : ExprMade ops a p → (PyVal.num c).Is b → Runs ops b1 (.scale p c) r → ExprMade ops (.mul a b) r
  | mulFn {a b p f r b1} : ExprMade ops a p → (PyVal.fn f).Is b → Runs ops b1 (.fmul p (.user f)) r → ExprMade ops (.mul a b) r
  | numMul {a b p c r b1} : (PyVal.num c).Is a → ExprMade ops b p → Runs ops b1 (.scale p c) r → ExprMade ops (.mul a b) r
  | fnMul {a b p f r b1} : (PyVal.fn f).Is a → ExprMade ops b p → Runs ops b1 (.fmul p (.user f)) r → ExprMade ops (.mul a b) r
  | div {a b p c r b1} : ExprMade ops a p → (PyVal.num c).Is b → c ≠ 0 → Runs ops b1 (.scale p (1 / c)) r → ExprMade ops (.div a b) r
  | move {a p r b1 t} : ExprMade ops a p → Runs ops b1 (.pre p t.tr) r → ExprMade ops (.move a t) r

variable {ops before l : List Op} {ord : PId → List MId} {o : Op} {r p q : PId}

theorem perform_runs {ps : List PId} (ho : o.Arith ps) (h : perform o before = .ok r l) (hl : l <+: ops) (hg : groups (runOps l {}) r ≠ []) :
    Runs ops before o r ∧ ∀ p ∈ ps, groups (runOps before {}) p ≠ [] := by
  obtain ⟨m, hm⟩ := List.exists_mem_of_ne_nil _ hg
  have hm' := ((perform_grown ho h).2.2 m).1 hm
  obtain ⟨rfl, rfl, hr⟩ := perform_ok h
  obtain ⟨t, rfl⟩ := hl
  exact ⟨⟨⟨t, by simp⟩, rfl, m, ((C32_consistent _).1 m _).2 hm⟩, fun p hp => List.ne_nil_of_mem (hm' p hp)⟩

/-- What evaluation does, whatever the value is. -/
structure EvalsTo (before : List Op) (e : PyExpr) (v : PyVal) (l : List Op) : Prop where
  grown : RanOn before l
  is : v.Is e
  exists' : ∀ r, v = .gp r → r < (runOps l {}).gps.length
  made : ∀ ops, l <+: ops → ∀ r, v = .gp r → groups (runOps l {}) r ≠ [] → ExprMade ops e r

theorem RanOn.nonempty {b l : List Op} (h : RanOn b l) (hp : p < (runOps b {}).gps.length) (hg : groups (runOps l {}) p ≠ []) :
    groups (runOps b {}) p ≠ [] := by rwa [← h.same p hp]

theorem gpPlus_num {c : ℝ} : gpPlus ord p (.num c) = perform (.addFn p (.const c)) := rfl

theorem gpPlus_gp {before l : List Op} (h : gpPlus ord p (.gp q) before = .ok r l) : ∃ o, perform (.add p q o) before = .ok r l := ⟨_, h⟩

theorem gpTimes_gp {before l : List Op} (h : gpTimes ord p (.gp q) before = .ok r l) : ∃ o, perform (.mul p q o) before = .ok r l := ⟨_, h⟩

theorem EvalsTo.of {e : PyExpr} {l2 : List Op} {ps : List PId} (ho : o.Arith ps) (hr : perform o l2 = .ok r l) (hg : RanOn before l2)
    (he : e.random = true) (hm : ∀ ops, l2 <+: ops → Runs ops l2 o r → (∀ p ∈ ps, groups (runOps l2 {}) p ≠ []) → ExprMade ops e r) :
    EvalsTo before e (.gp r) l := by
  have g := perform_grown ho hr
  refine ⟨hg.trans g.1, he, fun _ e => by cases e; exact g.2.1, fun ops hl r' e hn => ?_⟩
  cases e
  obtain ⟨R, N⟩ := perform_runs ho hr hl hn
  exact hm ops (g.1.pre.trans hl) R N

theorem EvalsTo.get {a : PyExpr} {l1 l2 : List Op} (h : EvalsTo before a (.gp p) l1) (hg : RanOn l1 l2) (hl : l2 <+: ops)
    (hn : groups (runOps l2 {}) p ≠ []) : ExprMade ops a p :=
  h.made ops (hg.pre.trans hl) p rfl (hg.nonempty (h.exists' p rfl) hn)

section
variable {a b : PyExpr} {u v w : PyVal} {l1 l2 : List Op}

theorem EvalsTo.add (h1 : EvalsTo before a u l1) (h2 : EvalsTo l1 b v l2) (h : pyAdd ord u v l2 = .ok w l) :
    EvalsTo before (.add a b) w l := by
  have g := h1.grown.trans h2.grown
  have i1 := h1.is
  have i2 := h2.is
  cases u with
  | gp p =>
    obtain ⟨r, l3, hr, h⟩ := mbind_ok (show (gpPlus ord p v >>= fun r => pure (PyVal.gp r)) l2 = _ from h)
    cases h
    cases v with
    | gp q =>
      obtain ⟨o, hr⟩ := gpPlus_gp hr
      exact .of (o := .add p q o) (ps := [p, q]) rfl hr g (by simp [PyExpr.random, show a.random = true from i1]) fun ops hl R N =>
        .add (h1.get h2.grown hl (N p (by simp))) (h2.get (.refl _) hl (N q (by simp))) R
    | num c =>
      exact .of (o := .addFn p (.const c)) (ps := [p]) rfl hr g (by simp [PyExpr.random, show a.random = true from i1]) fun ops hl R N =>
        .addNum (h1.get h2.grown hl (N p (by simp))) i2 R
    | fn f =>
      exact .of (o := .addFn p (.user f)) (ps := [p]) rfl hr g (by simp [PyExpr.random, show a.random = true from i1]) fun ops hl R N =>
        .addFn (h1.get h2.grown hl (N p (by simp))) i2 R
  | num c =>
    cases v with
    | gp p =>
      obtain ⟨r, l3, hr, h⟩ := mbind_ok (show (gpPlus ord p (.num c) >>= fun r => pure (PyVal.gp r)) l2 = _ from h)
      cases h
      exact .of (o := .addFn p (.const c)) (ps := [p]) rfl hr g (by simp [PyExpr.random, show b.random = true from i2]) fun ops hl R N =>
        .numAdd i1 (h2.get (.refl _) hl (N p (by simp))) R
    | num d =>
      cases h
      exact ⟨g, ⟨by simp [PyExpr.random, i1.1, i2.1], fun x => by rw [PyExpr.fixed, i1.2, i2.2]⟩, fun _ e => (by cases e), fun _ _ _ e => (by cases e)⟩
    | fn f => cases h
  | fn f =>
    cases v with
    | gp p =>
      obtain ⟨r, l3, hr, h⟩ := mbind_ok (show (gpPlus ord p (.fn f) >>= fun r => pure (PyVal.gp r)) l2 = _ from h)
      cases h
      exact .of (o := .addFn p (.user f)) (ps := [p]) rfl hr g (by simp [PyExpr.random, show b.random = true from i2]) fun ops hl R N =>
        .fnAdd i1 (h2.get (.refl _) hl (N p (by simp))) R
    | num d => cases h
    | fn f => cases h

theorem EvalsTo.mul (h1 : EvalsTo before a u l1) (h2 : EvalsTo l1 b v l2) (h : pyMul ord u v l2 = .ok w l) :
    EvalsTo before (.mul a b) w l := by
  have g := h1.grown.trans h2.grown
  have i1 := h1.is
  have i2 := h2.is
  cases u with
  | gp p =>
    obtain ⟨r, l3, hr, h⟩ := mbind_ok (show (gpTimes ord p v >>= fun r => pure (PyVal.gp r)) l2 = _ from h)
    cases h
    cases v with
    | gp q =>
      obtain ⟨o, hr⟩ := gpTimes_gp hr
      exact .of (o := .mul p q o) (ps := [p, q]) rfl hr g (by simp [PyExpr.random, show a.random = true from i1]) fun ops hl R N =>
        .mul (h1.get h2.grown hl (N p (by simp))) (h2.get (.refl _) hl (N q (by simp))) R
    | num c =>
      exact .of (o := .scale p c) (ps := [p]) rfl hr g (by simp [PyExpr.random, show a.random = true from i1]) fun ops hl R N =>
        .mulNum (h1.get h2.grown hl (N p (by simp))) i2 R
    | fn f =>
      exact .of (o := .fmul p (.user f)) (ps := [p]) rfl hr g (by simp [PyExpr.random, show a.random = true from i1]) fun ops hl R N =>
        .mulFn (h1.get h2.grown hl (N p (by simp))) i2 R
  | num c =>
    cases v with
    | gp p =>
      obtain ⟨r, l3, hr, h⟩ := mbind_ok (show (gpTimes ord p (.num c) >>= fun r => pure (PyVal.gp r)) l2 = _ from h)
      cases h
      exact .of (o := .scale p c) (ps := [p]) rfl hr g (by simp [PyExpr.random, show b.random = true from i2]) fun ops hl R N =>
        .numMul i1 (h2.get (.refl _) hl (N p (by simp))) R
    | num d =>
      cases h
      exact ⟨g, ⟨by simp [PyExpr.random, i1.1, i2.1], fun x => by rw [PyExpr.fixed, i1.2, i2.2]⟩, fun _ e => (by cases e), fun _ _ _ e => (by cases e)⟩
    | fn f => cases h
  | fn f =>
    cases v with
    | gp p =>
      obtain ⟨r, l3, hr, h⟩ := mbind_ok (show (gpTimes ord p (.fn f) >>= fun r => pure (PyVal.gp r)) l2 = _ from h)
      cases h
      exact .of (o := .fmul p (.user f)) (ps := [p]) rfl hr g (by simp [PyExpr.random, show b.random = true from i2]) fun ops hl R N =>
        .fnMul i1 (h2.get (.refl _) hl (N p (by simp))) R
    | num d => cases h
    | fn f => cases h

theorem pyNeg_gp (h : pyNeg ord (.gp p) before = .ok w l) : ∃ r, w = .gp r ∧ perform (.scale p (-1)) before = .ok r l := by
  obtain ⟨r, l3, hr, h⟩ := mbind_ok (show (gpTimes ord p (.num (-1)) >>= fun r => pure (PyVal.gp r)) before = _ from h)
  cases h
  exact ⟨r, rfl, hr⟩

theorem EvalsTo.neg (h1 : EvalsTo before a u l1) (h : pyNeg ord u l1 = .ok w l) : EvalsTo before (.neg a) w l := by
  have i1 := h1.is
  cases u with
  | num c => cases h; exact ⟨h1.grown, ⟨i1.1, fun x => by rw [PyExpr.fixed, i1.2]⟩, fun _ e => (by cases e), fun _ _ _ e => (by cases e)⟩
  | fn f => cases h
  | gp p =>
    obtain ⟨r, rfl, hr⟩ := pyNeg_gp h
    exact .of (o := .scale p (-1)) (ps := [p]) rfl hr h1.grown i1 fun ops hl R N => .neg (h1.get (.refl _) hl (N p (by simp))) R

theorem EvalsTo.sub (h1 : EvalsTo before a u l1) (h2 : EvalsTo l1 b v l2) (h : pySub ord u v l2 = .ok w l) :
    EvalsTo before (.sub a b) w l := by
  have g := h1.grown.trans h2.grown
  have i1 := h1.is
  have i2 := h2.is
  cases u with
  | gp p =>
    obtain ⟨n, l3, hn, h⟩ := mbind_ok (show (pyNeg ord v >>= fun n => pyAdd ord (.gp p) n) l2 = _ from h)
    cases v with
    | gp q =>
      obtain ⟨n, rfl, hn'⟩ := pyNeg_gp hn
      obtain ⟨r, l4, hr, h⟩ := mbind_ok (show (gpPlus ord p (.gp n) >>= fun r => pure (PyVal.gp r)) l3 = _ from h)
      cases h
      obtain ⟨o, hr⟩ := gpPlus_gp hr
      have g3 := (perform_grown (o := .scale q (-1)) (ps := [q]) rfl hn').1
      refine .of (o := .add p n o) (ps := [p, n]) rfl hr (g.trans g3) (by simp [PyExpr.random, show a.random = true from i1]) fun ops hl R N => ?_
      obtain ⟨R', N'⟩ := perform_runs (o := .scale q (-1)) (ps := [q]) rfl hn' hl (N n (by simp))
      exact .sub (h1.get (h2.grown.trans g3) hl (N p (by simp))) (h2.get (.refl _) (g3.pre.trans hl) (N' q (by simp))) R' R
    | num c =>
      cases hn
      obtain ⟨r, l4, hr, h⟩ := mbind_ok (show (gpPlus ord p (.num (-c)) >>= fun r => pure (PyVal.gp r)) l2 = _ from h)
      cases h
      exact .of (o := .addFn p (.const (-c))) (ps := [p]) rfl hr g (by simp [PyExpr.random, show a.random = true from i1]) fun ops hl R N =>
        .subNum (h1.get h2.grown hl (N p (by simp))) i2 R
    | fn f => cases hn
  | num c =>
    cases v with
    | gp p =>
      obtain ⟨n, l3, hn, h⟩ := mbind_ok (show (pyNeg ord (.gp p) >>= fun n => pyAdd ord n (.num c)) l2 = _ from h)
      obtain ⟨n, rfl, hn'⟩ := pyNeg_gp hn
      obtain ⟨r, l4, hr, h⟩ := mbind_ok (show (gpPlus ord n (.num c) >>= fun r => pure (PyVal.gp r)) l3 = _ from h)
      cases h
      have g3 := (perform_grown (o := .scale p (-1)) (ps := [p]) rfl hn').1
      refine .of (o := .addFn n (.const c)) (ps := [n]) rfl hr (g.trans g3) (by simp [PyExpr.random, show b.random = true from i2]) fun ops hl R N => ?_
      obtain ⟨R', N'⟩ := perform_runs (o := .scale p (-1)) (ps := [p]) rfl hn' hl (N n (by simp))
      exact .numSub i1 (h2.get (.refl _) (g3.pre.trans hl) (N' p (by simp))) R' R
    | num d =>
      cases h
      exact ⟨g, ⟨by simp [PyExpr.random, i1.1, i2.1], fun x => by rw [PyExpr.fixed, i1.2, i2.2]⟩, fun _ e => (by cases e), fun _ _ _ e => (by cases e)⟩
    | fn f => cases h
  | fn f =>
    cases v with
    | gp p =>
      obtain ⟨n, l3, hn, h⟩ := mbind_ok (show (pyNeg ord (.gp p) >>= fun n => pyAdd ord n (.fn f)) l2 = _ from h)
      obtain ⟨n, rfl, hn'⟩ := pyNeg_gp hn
      obtain ⟨r, l4, hr, h⟩ := mbind_ok (show (gpPlus ord n (.fn f) >>= fun r => pure (PyVal.gp r)) l3 = _ from h)
      cases h
      have g3 := (perform_grown (o := .scale p (-1)) (ps := [p]) rfl hn').1
      refine .of (o := .addFn n (.user f)) (ps := [n]) rfl hr (g.trans g3) (by simp [PyExpr.random, show b.random = true from i2]) fun ops hl R N => ?_
      obtain ⟨R', N'⟩ := perform_runs (o := .scale p (-1)) (ps := [p]) rfl hn' hl (N n (by simp))
      exact .fnSub i1 (h2.get (.refl _) (g3.pre.trans hl) (N' p (by simp))) R' R
    | num d => cases h
    | fn f => cases h

theorem pyQuot_ok (h : pyQuot u v before = .ok w l) : ∃ c d, u = .num c ∧ v = .num d ∧ d ≠ 0 ∧ w = .num (c / d) ∧ l = before := by
  cases u with
  | num c =>
    cases v with
    | num d =>
      simp only [pyQuot] at h
      split at h
      · cases h
      · next hd => cases h; exact ⟨c, d, rfl, rfl, hd, rfl, rfl⟩
    | _ => cases h
  | _ => cases v <;> cases h

theorem EvalsTo.div (h1 : EvalsTo before a u l1) (h2 : EvalsTo l1 b v l2) (h : pyDiv ord u v l2 = .ok w l) :
    EvalsTo before (.div a b) w l := by
  have g := h1.grown.trans h2.grown
  have i1 := h1.is
  have i2 := h2.is
  have quot : pyQuot u v l2 = .ok w l → EvalsTo before (.div a b) w l := by
    intro h
    obtain ⟨c, d, rfl, rfl, _, rfl, rfl⟩ := pyQuot_ok h
    exact ⟨g, ⟨by simp [PyExpr.random, i1.1, i2.1], fun x => by rw [PyExpr.fixed, i1.2, i2.2]⟩, fun _ e => (by cases e), fun _ _ _ e => (by cases e)⟩
  cases u with
  | gp p =>
    obtain ⟨n, l3, hn, h⟩ := mbind_ok (show (pyQuot (.num 1) v >>= fun n => pyMul ord (.gp p) n) l2 = _ from h)
    obtain ⟨c, d, hc, rfl, hd, rfl, rfl⟩ := pyQuot_ok hn
    cases hc
    obtain ⟨r, l4, hr, h⟩ := mbind_ok (show (gpTimes ord p (.num (1 / d)) >>= fun r => pure (PyVal.gp r)) _ = _ from h)
    cases h
    exact .of (o := .scale p (1 / d)) (ps := [p]) rfl hr g (by simp [PyExpr.random, show a.random = true from i1]) fun ops hl R N =>
      .div (h1.get h2.grown hl (N p (by simp))) i2 hd R
  | num c => exact quot h
  | fn f => exact quot h

theorem EvalsTo.move {t : Move} (h1 : EvalsTo before a u l1) (h : pyMove t u l1 = .ok w l) : EvalsTo before (.move a t) w l := by
  cases u with
  | gp p =>
    obtain ⟨r, l3, hr, h⟩ := mbind_ok (show (perform (.pre p t.tr) >>= fun r => pure (PyVal.gp r)) l1 = _ from h)
    cases h
    exact .of (o := .pre p t.tr) (ps := [p]) rfl hr h1.grown h1.is fun ops hl R N => .move (h1.get (.refl _) hl (N p (by simp))) R
  | num c => cases h
  | fn f => cases h

end

theorem eval_spec {e : PyExpr} {v : PyVal} (h : e.eval ord before = .ok v l) : EvalsTo before e v l := by
  induction e generalizing before l v with
  | num c => cases h; exact ⟨.refl _, ⟨rfl, fun _ => rfl⟩, fun _ e => (nomatch e), fun _ _ _ e => (nomatch e)⟩
  | fn f => cases h; exact ⟨.refl _, ⟨rfl, fun _ => rfl⟩, fun _ e => (nomatch e), fun _ _ _ e => (nomatch e)⟩
  | var p =>
    obtain ⟨q, l1, hq, h⟩ := mbind_ok (show (existing p >>= fun q => pure (PyVal.gp q)) before = _ from h)
    cases h
    unfold existing at hq
    split at hq
    · next hp =>
      cases hq
      exact ⟨.refl _, rfl, fun _ e => by cases e; exact hp, fun _ _ _ e _ => by cases e; exact .var⟩
    · cases hq
  | neg a ih =>
    obtain ⟨u, l1, h1, h⟩ := mbind_ok (show (a.eval ord >>= fun u => pyNeg ord u) before = _ from h)
    exact (ih h1).neg h
  | add a b ih1 ih2 =>
    obtain ⟨u, l1, h1, h⟩ := mbind_ok (show (a.eval ord >>= fun u => b.eval ord >>= fun v => pyAdd ord u v) before = _ from h)
    obtain ⟨v, l2, h2, h⟩ := mbind_ok h
    exact (ih1 h1).add (ih2 h2) h
  | sub a b ih1 ih2 =>
    obtain ⟨u, l1, h1, h⟩ := mbind_ok (show (a.eval ord >>= fun u => b.eval ord >>= fun v => pySub ord u v) before = _ from h)
    obtain ⟨v, l2, h2, h⟩ := mbind_ok h
    exact (ih1 h1).sub (ih2 h2) h
  | mul a b ih1 ih2 =>
    obtain ⟨u, l1, h1, h⟩ := mbind_ok (show (a.eval ord >>= fun u => b.eval ord >>= fun v => pyMul ord u v) before = _ from h)
    obtain ⟨v, l2, h2, h⟩ := mbind_ok h
    exact (ih1 h1).mul (ih2 h2) h
  | div a b ih1 ih2 =>
    obtain ⟨u, l1, h1, h⟩ := mbind_ok (show (a.eval ord >>= fun u => b.eval ord >>= fun v => pyDiv ord u v) before = _ from h)
    obtain ⟨v, l2, h2, h⟩ := mbind_ok h
    exact (ih1 h1).div (ih2 h2) h
  | move a t ih =>
    obtain ⟨u, l1, h1, h⟩ := mbind_ok (show (a.eval ord >>= fun u => pyMove t u) before = _ from h)
    exact (ih h1).move h

theorem RunsExpr.made {e : PyExpr} (h : RunsExpr ops before ord e r) : ExprMade ops e r := by
  obtain ⟨l, after, he, rfl, hg⟩ := h.run
  exact (eval_spec he).made _ (List.prefix_append _ _) r rfl hg

/-! ## Values of processes -/

section
variable {V : Type} [AddCommGroup V] [Module ℝ V] {I : Interp V} {m : MId} {b1 : List Op} {x : Pt}

theorem Move.apply {t : Move} {x : Pt} {x' : Input} (h : t.tr.apply (.num [x]) = some x') : x' = .num [t.row x] := by
  cases t with
  | shift c => cases h; rfl
  | stretch c => cases h; rfl
  | transform g => cases h; rfl
  | shifts cs =>
    simp only [Move.tr, InTr.apply, Amt.sub, List.mapM_cons, List.mapM_nil] at h
    split at h
    · cases h; rfl
    · cases h
  | stretches cs =>
    simp only [Move.tr, InTr.apply, Amt.div, List.mapM_cons, List.mapM_nil] at h
    split at h
    · cases h; rfl
    · cases h
  | select ds =>
    simp only [Move.tr, InTr.apply, List.mapM_cons, List.mapM_nil] at h
    cases e : ds.mapM (x[·]?) with
    | none => rw [e] at h; cases h
    | some y =>
      rw [e] at h; cases h
      congr 2
      induction ds generalizing y with
      | nil => cases e; rfl
      | cons d ds ih =>
        obtain ⟨z, zs, hz, hzs, rfl⟩ := mapM_cons_some e
        rw [ih zs hzs]
        simp [Move.row, List.getD, hz]

theorem value_fixed {one : V} {F : PId → Pt → V} {e : PyExpr} (h : e.random = false) (x : Pt) : e.value one F x = e.fixed x • one := by
  induction e generalizing x with
  | num c => rfl
  | fn f => rfl
  | var p => cases h
  | neg a ih => rw [PyExpr.value, ih h, PyExpr.fixed, neg_smul]
  | add a b ih1 ih2 =>
    obtain ⟨h1, h2⟩ := Bool.or_eq_false_iff.1 h
    rw [PyExpr.value, ih1 h1, ih2 h2, PyExpr.fixed, add_smul]
  | sub a b ih1 ih2 =>
    obtain ⟨h1, h2⟩ := Bool.or_eq_false_iff.1 h
    rw [PyExpr.value, ih1 h1, ih2 h2, PyExpr.fixed, sub_smul]
  | mul a b ih1 ih2 =>
    obtain ⟨h1, h2⟩ := Bool.or_eq_false_iff.1 h
    rw [PyExpr.value, h1, if_neg (by simp), ih2 h2, PyExpr.fixed, smul_smul]
  | div a b ih1 ih2 =>
    obtain ⟨h1, h2⟩ := Bool.or_eq_false_iff.1 h
    rw [PyExpr.value, ih1 h1, PyExpr.fixed, smul_smul, div_eq_inv_mul]
  | move a t ih => rw [PyExpr.value, ih h, PyExpr.fixed]

theorem PyVal.Is.num {e : PyExpr} {c : ℝ} (h : (PyVal.num c).Is e) (one : V) (F : PId → Pt → V) (x : Pt) : e.value one F x = c • one := by
  rw [value_fixed h.1, h.2]

theorem PyVal.Is.fn {e : PyExpr} {f : Pt → ℝ} (h : (PyVal.fn f).Is e) (one : V) (F : PId → Pt → V) (x : Pt) : e.value one F x = f x • one := by
  rw [value_fixed h.1, h.2]

theorem ExprMade.random {e : PyExpr} (h : ExprMade ops e r) : e.random = true := by
  induction h <;> simp_all [PyExpr.random]

theorem Interp.Reads.scale_at (h : I.Reads ops) {c : ℝ} (hm : Runs ops b1 (.scale p c) r) (hr : Attached (runOps ops {}) m r) :
    Attached (runOps ops {}) m p ∧ ∀ vs, I.F m r (.num [x]) = some vs → ∃ ws, I.F m p (.num [x]) = some ws ∧ ∀ v, ws = [v] → vs = [c • v] := by
  have hm := hm.of (d := .scale p c) rfl
  refine ⟨h.refs hr hm p (by simp [ProcDef.refs]), fun vs hv => ?_⟩
  rw [h.scale hr hm (x := .num [x]) trivial] at hv
  obtain ⟨ws, hw, rfl⟩ := Option.map_eq_some_iff.1 hv
  exact ⟨ws, hw, fun v e => by rw [e]; rfl⟩

theorem Interp.Reads.addFn_at (h : I.Reads ops) {f : Fn} (hm : Runs ops b1 (.addFn p f) r) (hf : f.Plain) (hr : Attached (runOps ops {}) m r) :
    Attached (runOps ops {}) m p ∧
      ∀ vs, I.F m r (.num [x]) = some vs → ∃ ws, I.F m p (.num [x]) = some ws ∧ ∀ v, ws = [v] → vs = [v + f.at x • I.one] := by
  have hm := hm.of (d := .addFn p f) rfl
  refine ⟨h.refs hr hm p (by simp [ProcDef.refs]), fun vs hv => ?_⟩
  rw [h.addFn hr hm (x := .num [x]) trivial] at hv
  obtain ⟨ws, hw, hv⟩ := bind_some hv
  refine ⟨ws, hw, fun v e => ?_⟩
  subst e
  have e := Interp.fnAt_plain (I := I) hf [x]
  rw [show [v].length = [x].length from rfl, e] at hv
  cases hv
  rfl

theorem Interp.Reads.fmul_at (h : I.Reads ops) {f : Fn} (hm : Runs ops b1 (.fmul p f) r) (hf : f.Plain) (hr : Attached (runOps ops {}) m r) :
    Attached (runOps ops {}) m p ∧
      ∀ vs, I.F m r (.num [x]) = some vs → ∃ ws, I.F m p (.num [x]) = some ws ∧ ∀ v, ws = [v] → vs = [f.at x • v] := by
  have hm := hm.of (d := .fmul p f) rfl
  refine ⟨h.refs hr hm p (by simp [ProcDef.refs]), fun vs hv => ?_⟩
  rw [h.fmul hr hm (x := .num [x]) trivial] at hv
  obtain ⟨ws, hw, hv⟩ := bind_some hv
  refine ⟨ws, hw, fun v e => ?_⟩
  subst e
  have e := Interp.fnAt_plain (I := I) hf [x]
  rw [show [v].length = [x].length from rfl, e] at hv
  cases hv
  rfl

theorem Interp.Reads.sum_at (h : I.Reads ops) {o : List MId} (hm : Runs ops b1 (.add p q o) r) (hr : Attached (runOps ops {}) m r) :
    Attached (runOps ops {}) m p ∧ Attached (runOps ops {}) m q ∧ ∀ vs, I.F m r (.num [x]) = some vs →
      ∃ ws us, I.F m p (.num [x]) = some ws ∧ I.F m q (.num [x]) = some us ∧ ∀ v u, ws = [v] → us = [u] → vs = [v + u] := by
  have hm := hm.of (d := .sum p q) rfl
  refine ⟨h.refs hr hm p (by simp [ProcDef.refs]), h.refs hr hm q (by simp [ProcDef.refs]), fun vs hv => ?_⟩
  rw [h.sum hr hm (x := .num [x]) trivial] at hv
  obtain ⟨ws, hw, hv⟩ := bind_some hv
  obtain ⟨us, hu, hv⟩ := bind_some hv
  refine ⟨ws, us, hw, hu, fun v u e e' => ?_⟩
  subst e e'
  cases hv
  rfl

theorem Interp.Reads.move_at (h : I.Reads ops) {t : Move} (hm : Runs ops b1 (.pre p t.tr) r) (hr : Attached (runOps ops {}) m r) :
    Attached (runOps ops {}) m p ∧ ∀ vs, I.F m r (.num [x]) = some vs → I.F m p (.num [t.row x]) = some vs := by
  have hm := hm.of (d := .pre p t.tr) rfl
  refine ⟨h.refs hr hm p (by simp [ProcDef.refs]), fun vs hv => ?_⟩
  rw [h.pre hr hm (x := .num [x]) trivial] at hv
  obtain ⟨x', hx, hv⟩ := bind_some hv
  rw [Move.apply hx] at hv
  exact hv

theorem needs_fixed {e : PyExpr} (h : e.random = false) (x : Pt) : e.needs x = [] ∧ e.vars = [] := by
  induction e generalizing x with
  | num c => exact ⟨rfl, rfl⟩
  | fn f => exact ⟨rfl, rfl⟩
  | var p => cases h
  | neg a ih => exact ih h x
  | move a t ih => exact ih h _
  | add a b ih1 ih2 | sub a b ih1 ih2 | mul a b ih1 ih2 | div a b ih1 ih2 =>
    obtain ⟨h1, h2⟩ := Bool.or_eq_false_iff.1 h
    simp [PyExpr.needs, PyExpr.vars, ih1 h1 x, ih2 h2 x]

theorem Interp.Reads.made (h : I.Reads ops) {e : PyExpr} (hm : ExprMade ops e r) (hl : e.Linear) (hr : Attached (runOps ops {}) m r) :
    (∀ p ∈ e.vars, Attached (runOps ops {}) m p) ∧ ∀ (f : PId → Pt → V) (x : Pt) (vs : List V),
      (∀ py ∈ e.needs x, I.F m py.1 (.num [py.2]) = some [f py.1 py.2]) → I.F m r (.num [x]) = some vs → vs = [e.value I.one f x] := by
  induction hm with
  | var => exact ⟨fun p hp => by rw [List.mem_singleton.1 hp]; exact hr, fun f x vs hf hv => by
      rw [hf _ (List.mem_singleton.2 rfl)] at hv; cases hv; rfl⟩
  | neg h1 R ih =>
    obtain ⟨ha, hv⟩ := h.scale_at (x := []) R hr
    refine ⟨(ih hl ha).1, fun f x vs hf hv => ?_⟩
    obtain ⟨ws, hw, e⟩ := (h.scale_at R hr).2 vs hv
    rw [e _ ((ih hl ha).2 f x ws hf hw), PyExpr.value, neg_one_smul]
  | add h1 h2 R ih1 ih2 =>
    obtain ⟨ha, hb, _⟩ := h.sum_at (x := []) R hr
    refine ⟨fun p hp => (List.mem_append.1 hp).elim ((ih1 hl.1 ha).1 p) ((ih2 hl.2 hb).1 p), fun f x vs hf hv => ?_⟩
    obtain ⟨ws, us, hw, hu, e⟩ := (h.sum_at R hr).2.2 vs hv
    rw [e _ _ ((ih1 hl.1 ha).2 f x ws (fun py hp => hf py (List.mem_append_left _ hp)) hw)
      ((ih2 hl.2 hb).2 f x us (fun py hp => hf py (List.mem_append_right _ hp)) hu), PyExpr.value]
  | addNum h1 i R ih =>
    obtain ⟨ha, _⟩ := h.addFn_at (x := []) R trivial hr
    refine ⟨fun p hp => (ih hl.1 ha).1 p (by simpa [PyExpr.vars, needs_fixed i.1 []] using hp), fun f x vs hf hv => ?_⟩
    obtain ⟨ws, hw, e⟩ := (h.addFn_at R trivial hr).2 vs hv
    rw [e _ ((ih hl.1 ha).2 f x ws (fun py hp => hf py (List.mem_append_left _ hp)) hw), PyExpr.value, i.num]; rfl
  | addFn h1 i R ih =>
    obtain ⟨ha, _⟩ := h.addFn_at (x := []) R trivial hr
    refine ⟨fun p hp => (ih hl.1 ha).1 p (by simpa [PyExpr.vars, needs_fixed i.1 []] using hp), fun f x vs hf hv => ?_⟩
    obtain ⟨ws, hw, e⟩ := (h.addFn_at R trivial hr).2 vs hv
    rw [e _ ((ih hl.1 ha).2 f x ws (fun py hp => hf py (List.mem_append_left _ hp)) hw), PyExpr.value, i.fn]; rfl
  | numAdd i h1 R ih =>
    obtain ⟨ha, _⟩ := h.addFn_at (x := []) R trivial hr
    refine ⟨fun p hp => (ih hl.2 ha).1 p (by simpa [PyExpr.vars, needs_fixed i.1 []] using hp), fun f x vs hf hv => ?_⟩
    obtain ⟨ws, hw, e⟩ := (h.addFn_at R trivial hr).2 vs hv
    rw [e _ ((ih hl.2 ha).2 f x ws (fun py hp => hf py (List.mem_append_right _ hp)) hw), PyExpr.value, i.num, add_comm]; rfl
  | fnAdd i h1 R ih =>
    obtain ⟨ha, _⟩ := h.addFn_at (x := []) R trivial hr
    refine ⟨fun p hp => (ih hl.2 ha).1 p (by simpa [PyExpr.vars, needs_fixed i.1 []] using hp), fun f x vs hf hv => ?_⟩
    obtain ⟨ws, hw, e⟩ := (h.addFn_at R trivial hr).2 vs hv
    rw [e _ ((ih hl.2 ha).2 f x ws (fun py hp => hf py (List.mem_append_right _ hp)) hw), PyExpr.value, i.fn, add_comm]; rfl
  | sub h1 h2 R1 R2 ih1 ih2 =>
    obtain ⟨ha, hn, _⟩ := h.sum_at (x := []) R2 hr
    obtain ⟨hb, _⟩ := h.scale_at (x := []) R1 hn
    refine ⟨fun p hp => (List.mem_append.1 hp).elim ((ih1 hl.1 ha).1 p) ((ih2 hl.2 hb).1 p), fun f x vs hf hv => ?_⟩
    obtain ⟨ws, us, hw, hu, e⟩ := (h.sum_at R2 hr).2.2 vs hv
    obtain ⟨ts, ht, e'⟩ := (h.scale_at R1 hn).2 us hu
    rw [e _ _ ((ih1 hl.1 ha).2 f x ws (fun py hp => hf py (List.mem_append_left _ hp)) hw)
      (e' _ ((ih2 hl.2 hb).2 f x ts (fun py hp => hf py (List.mem_append_right _ hp)) ht)), PyExpr.value, neg_one_smul, sub_eq_add_neg]
  | subNum h1 i R ih =>
    obtain ⟨ha, _⟩ := h.addFn_at (x := []) R trivial hr
    refine ⟨fun p hp => (ih hl.1 ha).1 p (by simpa [PyExpr.vars, needs_fixed i.1 []] using hp), fun f x vs hf hv => ?_⟩
    obtain ⟨ws, hw, e⟩ := (h.addFn_at R trivial hr).2 vs hv
    rw [e _ ((ih hl.1 ha).2 f x ws (fun py hp => hf py (List.mem_append_left _ hp)) hw), PyExpr.value, i.num, sub_eq_add_neg, ← neg_smul]; rfl
  | numSub i h1 R1 R2 ih =>
    obtain ⟨hn, _⟩ := h.addFn_at (x := []) R2 trivial hr
    obtain ⟨ha, _⟩ := h.scale_at (x := []) R1 hn
    refine ⟨fun p hp => (ih hl.2 ha).1 p (by simpa [PyExpr.vars, needs_fixed i.1 []] using hp), fun f x vs hf hv => ?_⟩
    obtain ⟨ws, hw, e⟩ := (h.addFn_at R2 trivial hr).2 vs hv
    obtain ⟨ts, ht, e'⟩ := (h.scale_at R1 hn).2 ws hw
    rw [e _ (e' _ ((ih hl.2 ha).2 f x ts (fun py hp => hf py (List.mem_append_right _ hp)) ht)), PyExpr.value, i.num, neg_one_smul, sub_eq_neg_add]; rfl
  | fnSub i h1 R1 R2 ih =>
    obtain ⟨hn, _⟩ := h.addFn_at (x := []) R2 trivial hr
    obtain ⟨ha, _⟩ := h.scale_at (x := []) R1 hn
    refine ⟨fun p hp => (ih hl.2 ha).1 p (by simpa [PyExpr.vars, needs_fixed i.1 []] using hp), fun f x vs hf hv => ?_⟩
    obtain ⟨ws, hw, e⟩ := (h.addFn_at R2 trivial hr).2 vs hv
    obtain ⟨ts, ht, e'⟩ := (h.scale_at R1 hn).2 ws hw
    rw [e _ (e' _ ((ih hl.2 ha).2 f x ts (fun py hp => hf py (List.mem_append_right _ hp)) ht)), PyExpr.value, i.fn, neg_one_smul, sub_eq_neg_add]; rfl
  | mul h1 h2 R => exact (hl.2.2 ⟨h1.random, h2.random⟩).elim
  | mulNum h1 i R ih =>
    obtain ⟨ha, _⟩ := h.scale_at (x := []) R hr
    refine ⟨fun p hp => (ih hl.1 ha).1 p (by simpa [PyExpr.vars, needs_fixed i.1 []] using hp), fun f x vs hf hv => ?_⟩
    obtain ⟨ws, hw, e⟩ := (h.scale_at R hr).2 vs hv
    rw [e _ ((ih hl.1 ha).2 f x ws (fun py hp => hf py (List.mem_append_left _ hp)) hw), PyExpr.value, if_pos h1.random, i.2]
  | mulFn h1 i R ih =>
    obtain ⟨ha, _⟩ := h.fmul_at (x := []) R trivial hr
    refine ⟨fun p hp => (ih hl.1 ha).1 p (by simpa [PyExpr.vars, needs_fixed i.1 []] using hp), fun f x vs hf hv => ?_⟩
    obtain ⟨ws, hw, e⟩ := (h.fmul_at R trivial hr).2 vs hv
    rw [e _ ((ih hl.1 ha).2 f x ws (fun py hp => hf py (List.mem_append_left _ hp)) hw), PyExpr.value, if_pos h1.random, i.2]; rfl
  | numMul i h1 R ih =>
    obtain ⟨ha, _⟩ := h.scale_at (x := []) R hr
    refine ⟨fun p hp => (ih hl.2.1 ha).1 p (by simpa [PyExpr.vars, needs_fixed i.1 []] using hp), fun f x vs hf hv => ?_⟩
    obtain ⟨ws, hw, e⟩ := (h.scale_at R hr).2 vs hv
    rw [e _ ((ih hl.2.1 ha).2 f x ws (fun py hp => hf py (List.mem_append_right _ hp)) hw), PyExpr.value, i.1, if_neg (by simp), i.2]
  | fnMul i h1 R ih =>
    obtain ⟨ha, _⟩ := h.fmul_at (x := []) R trivial hr
    refine ⟨fun p hp => (ih hl.2.1 ha).1 p (by simpa [PyExpr.vars, needs_fixed i.1 []] using hp), fun f x vs hf hv => ?_⟩
    obtain ⟨ws, hw, e⟩ := (h.fmul_at R trivial hr).2 vs hv
    rw [e _ ((ih hl.2.1 ha).2 f x ws (fun py hp => hf py (List.mem_append_right _ hp)) hw), PyExpr.value, i.1, if_neg (by simp), i.2]; rfl
  | div h1 i hc R ih =>
    obtain ⟨ha, _⟩ := h.scale_at (x := []) R hr
    refine ⟨fun p hp => (ih hl.1 ha).1 p (by simpa [PyExpr.vars, needs_fixed i.1 []] using hp), fun f x vs hf hv => ?_⟩
    obtain ⟨ws, hw, e⟩ := (h.scale_at R hr).2 vs hv
    rw [e _ ((ih hl.1 ha).2 f x ws (fun py hp => hf py (List.mem_append_left _ hp)) hw), PyExpr.value, i.2, one_div]
  | move h1 R ih =>
    obtain ⟨ha, _⟩ := h.move_at (x := []) R hr
    exact ⟨(ih hl ha).1, fun f x vs hf hv => (ih hl ha).2 f _ vs hf ((h.move_at R hr).2 vs hv)⟩

/-- **C51.** In every reading of every program, the value of the result of an expression is what the expression says, in every measure that the
result is in: sums, differences, negatives, multiples, quotients and transformed inputs, at every row at which the values of the processes in the
expression are known. A reading assigns random variables to all processes, so this fixes the joint distribution with all other processes. -/
theorem C51_reading (h : I.Reads ops) {e : PyExpr} (he : RunsExpr ops before ord e r) (hl : e.Linear) (hr : Attached (runOps ops {}) m r)
    (f : PId → Pt → V) (x : Pt) (hf : ∀ py ∈ e.needs x, I.F m py.1 (.num [py.2]) = some [f py.1 py.2]) (vs : List V)
    (hv : I.F m r (.num [x]) = some vs) : vs = [e.value I.one f x] :=
  (h.made he.made hl hr).2 f x vs hf hv

end

end Stheno
