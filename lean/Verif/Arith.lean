import Verif.Approx

/-!
# Arithmetic with processes in Python

How Python evaluates expressions like `(f - p) / 2 + q.shift(1)`: operators of `Random` (`stheno/random.py:15-37`) on top of `GP.__add__` and
`GP.__mul__` (`stheno/model/gp.py:162-188`), with the dispatch of Python's binary operators: if the left operand cannot do the operation, the
reflected method of the right operand is tried.
-/

namespace Stheno

/-- What the operands can be: a Python number, a Python function (`FunctionType`), or a process. Simplification: other numbers, in particular
arrays and numbers of NumPy, whose own operators interfere with the dispatch, are not modelled. -/
inductive PyVal where
  | num (c : ℝ)
  | fn (f : Pt → ℝ)
  | gp (p : PId)

/-- Evaluation of expressions. The state is the program so far. -/
abbrev PyM := EStateM Err (List Op)

/-- Perform an operation that makes a process. What is returned is the new process, see `gpUnary_id`, `gpAdd_id` and `gpMul_id`. -/
noncomputable def perform (o : Op) : PyM PId := fun before =>
  match o.run (runOps before {}) with
  | .ok _ _ => .ok (runOps before {}).gps.length (before ++ [o])
  | .error e _ => .error e (before ++ [o])

/-- The number of the next process. -/
noncomputable def nextGP : PyM ℕ := fun before => .ok (runOps before {}).gps.length before

variable (ord : PId → List MId)

/-- `GP.__add__` (`stheno/model/gp.py:162-174`). `ord r` is the order in which Python iterates over the set of measures for the result `r`. -/
noncomputable def gpPlus (p : PId) : PyVal → PyM PId
  | .num c => perform (.addFn p (.const c))
  | .fn f => perform (.addFn p (.user f))
  | .gp q => do perform (.add p q (ord (← nextGP)))

/-- `GP.__mul__` (`stheno/model/gp.py:176-188`). -/
noncomputable def gpTimes (p : PId) : PyVal → PyM PId
  | .num c => perform (.scale p c)
  | .fn f => perform (.fmul p (.user f))
  | .gp q => do perform (.mul p q (ord (← nextGP)))

/-- `u + v`. Numbers and functions do not know how to add a process, so `Random.__radd__` (`stheno/random.py:18-19`) is called. Functions
cannot be added to numbers or functions. -/
noncomputable def pyAdd : PyVal → PyVal → PyM PyVal
  | .gp p, v => do pure (.gp (← gpPlus ord p v))
  | u, .gp p => do pure (.gp (← gpPlus ord p u))
  | .num a, .num b => pure (.num (a + b))
  | _, _ => throw .type

/-- `u * v`, with `Random.__rmul__` (`stheno/random.py:21-22`). -/
noncomputable def pyMul : PyVal → PyVal → PyM PyVal
  | .gp p, v => do pure (.gp (← gpTimes ord p v))
  | u, .gp p => do pure (.gp (← gpTimes ord p u))
  | .num a, .num b => pure (.num (a * b))
  | _, _ => throw .type

/-- `-u`: `Random.__neg__` (`stheno/random.py:24-25`) is `-1 * self`. -/
noncomputable def pyNeg : PyVal → PyM PyVal
  | .num c => pure (.num (-c))
  | .fn _ => throw .type
  | .gp p => pyMul ord (.num (-1)) (.gp p)

/-- `u - v`: `Random.__sub__` (`stheno/random.py:27-28`) is `self + (-other)` and `Random.__rsub__` (30-31) is `(-self) + other`. -/
noncomputable def pySub : PyVal → PyVal → PyM PyVal
  | .gp p, v => do pyAdd ord (.gp p) (← pyNeg ord v)
  | u, .gp p => do pyAdd ord (← pyNeg ord (.gp p)) u
  | .num a, .num b => pure (.num (a - b))
  | _, _ => throw .type

/-- `u / v` where `u` is a number or a function. There is no `Random.__rtruediv__`. -/
noncomputable def pyQuot : PyVal → PyVal → PyM PyVal
  | .num a, .num b => if b = 0 then throw .zeroDivision else pure (.num (a / b))
  | _, _ => throw .type

/-- `u / v`: `Random.__truediv__` (`stheno/random.py:33-37`) is `self * (1 / other)`. -/
noncomputable def pyDiv : PyVal → PyVal → PyM PyVal
  | .gp p, v => do pyMul ord (.gp p) (← pyQuot (.num 1) v)
  | u, v => pyQuot u v

/-- Methods that transform the input (`stheno/model/gp.py:190-216`), with a number or one number per feature. -/
inductive Move where
  | shift (c : ℝ)
  | shifts (cs : List ℝ)
  | stretch (c : ℝ)
  | stretches (cs : List ℝ)
  | select (dims : List ℕ)
  | transform (g : Pt → Pt)

/-- The input transformation of a method. -/
def Move.tr : Move → InTr
  | .shift c => .shift (.scalar c)
  | .shifts cs => .shift (.vec cs)
  | .stretch c => .stretch (.scalar c)
  | .stretches cs => .stretch (.vec cs)
  | .select dims => .select dims
  | .transform g => .map g

/-- `u.shift(s)` and so on. Numbers and functions do not have these methods. -/
noncomputable def pyMove (t : Move) : PyVal → PyM PyVal
  | .gp p => do pure (.gp (← perform (.pre p t.tr)))
  | _ => throw .attribute

/-- Python expressions with numbers, functions and processes. -/
inductive PyExpr where
  | num (c : ℝ)
  | fn (f : Pt → ℝ)
  | var (p : PId)
  | neg (a : PyExpr)
  | add (a b : PyExpr)
  | sub (a b : PyExpr)
  | mul (a b : PyExpr)
  | div (a b : PyExpr)
  | move (a : PyExpr) (t : Move)

/-- Look up a process that exists. -/
noncomputable def existing (p : PId) : PyM PId := fun before =>
  if p < (runOps before {}).gps.length then .ok p before else .error .dangling before

/-- Evaluation, from left to right. -/
noncomputable def PyExpr.eval : PyExpr → PyM PyVal
  | .num c => pure (.num c)
  | .fn f => pure (.fn f)
  | .var p => do pure (.gp (← existing p))
  | .neg a => do pyNeg ord (← a.eval)
  | .add a b => do
    let u ← a.eval
    let v ← b.eval
    pyAdd ord u v
  | .sub a b => do
    let u ← a.eval
    let v ← b.eval
    pySub ord u v
  | .mul a b => do
    let u ← a.eval
    let v ← b.eval
    pyMul ord u v
  | .div a b => do
    let u ← a.eval
    let v ← b.eval
    pyDiv ord u v
  | .move a t => do pyMove t (← a.eval)

/-! ## What was run -/

theorem mbind_ok {σ α β : Type} {c : EStateM Err σ α} {f : α → EStateM Err σ β} {w w' : σ} {v : β} (h : (c >>= f) w = .ok v w') :
    ∃ u w1, c w = .ok u w1 ∧ f u w1 = .ok v w' := by
  change EStateM.bind c f w = _ at h
  unfold EStateM.bind at h
  cases hc : c w with
  | ok u w1 => rw [hc] at h; exact ⟨u, w1, rfl, h⟩
  | error e w1 => rw [hc] at h; cases h

theorem gpUnary_id {f : MId → PId → PId → M Unit} {p r : PId} {w w' : World} (h : gpUnary f p w = .ok r w') : r = w.gps.length := by
  obtain ⟨a, w1, h1, h⟩ := mbind_ok h
  obtain ⟨b, w2, h2, h⟩ := mbind_ok h
  obtain ⟨c, w3, h3, h⟩ := mbind_ok h
  cases h
  cases h1
  rfl

theorem gpAdd_id {p q r : PId} {o : List MId} {w w' : World} (h : gpAdd p q o w = .ok r w') : r = w.gps.length := by
  obtain ⟨a, w1, h1, h⟩ := mbind_ok h
  obtain ⟨b, w2, h2, h⟩ := mbind_ok h
  obtain ⟨c, w3, h3, h⟩ := mbind_ok h
  cases h
  cases h1
  rfl

theorem gpMul_id {p q r : PId} {o : List MId} {w w' : World} (h : gpMul p q o w = .ok r w') : r = w.gps.length := by
  obtain ⟨a, w1, h1, h⟩ := mbind_ok h
  obtain ⟨b, w2, h2, h⟩ := mbind_ok h
  obtain ⟨c, w3, h3, h⟩ := mbind_ok h
  cases h
  cases h1
  rfl

theorem perform_ok {o : Op} {before l : List Op} {r : PId} (h : perform o before = .ok r l) :
    r = (runOps before {}).gps.length ∧ l = before ++ [o] ∧ o.raises (runOps before {}) = none := by
  unfold perform at h
  unfold Op.raises
  split at h
  · next e => rw [e]; cases h; exact ⟨rfl, rfl, rfl⟩
  · cases h

/-- More operations were run, and processes that existed before are in the same measures. -/
structure RanOn (b l : List Op) : Prop where
  pre : b <+: l
  len : (runOps b {}).gps.length ≤ (runOps l {}).gps.length
  same : ∀ p < (runOps b {}).gps.length, groups (runOps l {}) p = groups (runOps b {}) p

theorem RanOn.refl (b : List Op) : RanOn b b := ⟨List.prefix_rfl, le_rfl, fun _ _ => rfl⟩

theorem RanOn.trans {b l l' : List Op} (h : RanOn b l) (h' : RanOn l l') : RanOn b l' :=
  ⟨h.pre.trans h'.pre, h.len.trans h'.len, fun p hp => (h'.same p (hp.trans_le h.len)).trans (h.same p hp)⟩

/-- The operations of arithmetic. -/
def Op.Arith : Op → List PId → Prop
  | .addFn p _, l | .scale p _, l | .fmul p _, l | .pre p _, l => l = [p]
  | .add p q _, l | .mul p q _, l => l = [p, q]
  | _, _ => False

theorem perform_grown {o : Op} {before l : List Op} {r : PId} {ps : List PId} (ho : o.Arith ps) (h : perform o before = .ok r l) :
    RanOn before l ∧ r < (runOps l {}).gps.length ∧ ∀ m, m ∈ groups (runOps l {}) r ↔ ∀ p ∈ ps, m ∈ groups (runOps before {}) p := by
  obtain ⟨rfl, rfl, hr⟩ := perform_ok h
  have un : ∀ p, o.unaryOn = some p → ps = [p] → RanOn before (before ++ [o]) ∧ (runOps before {}).gps.length < (runOps (before ++ [o]) {}).gps.length ∧
      ∀ m, m ∈ groups (runOps (before ++ [o]) {}) (runOps before {}).gps.length ↔ ∀ p ∈ ps, m ∈ groups (runOps before {}) p := by
    rintro p hu rfl
    have e := unary_gps hu hr
    refine ⟨⟨List.prefix_append _ _, by rw [e]; simp, fun q hq => ?_⟩, by rw [e]; simp, fun m => ?_⟩
    · rw [groups, e, List.getElem?_append_left hq]; rfl
    · rw [after_eq, C32_result_unary before o p hu hr]; simp
  cases o with
  | addFn p f => exact un p rfl ho
  | scale p f => exact un p rfl ho
  | fmul p f => exact un p rfl ho
  | pre p f => exact un p rfl ho
  | add p q o =>
    obtain rfl : ps = [p, q] := ho
    have e := add_gps hr
    refine ⟨⟨List.prefix_append _ _, by rw [e]; simp, fun q hq => ?_⟩, by rw [e]; simp, fun m => ?_⟩
    · rw [groups, e, List.getElem?_append_left hq]; rfl
    · rw [after_eq, C32_result before p [q] _ (.inl ⟨q, o, rfl, .inl rfl⟩) hr]; simp
  | mul p q o =>
    obtain rfl : ps = [p, q] := ho
    have hi := Inv.reach before
    have hi' := (hi.after (.mul p q o)).1
    obtain ⟨v, hv⟩ := forget_ok (hi.ok hr)
    obtain ⟨_, _, _, e⟩ := aGpMul_ok hv
    have hl : ∀ (ms : List MId) (L : AWorld) (res : PId), L.gps.length ≤ (ms.foldl (fun L' m => L'.mulPush m res p q) L).gps.length := by
      intro ms
      induction ms with
      | nil => intro L res; exact le_rfl
      | cons m ms ih => intro L res; exact mulPush_length.trans (ih _ _)
    have hlen : (runOps before {}).gps.length < (runOps (before ++ [.mul p q o]) {}).gps.length := by
      rw [after_eq, hi'.rel.gps, hi.rel.gps, e]
      refine Nat.lt_of_lt_of_le ?_ (hl _ _ _)
      simp [AWorld.new]
    refine ⟨⟨List.prefix_append _ _, hlen.le, fun s hs => ?_⟩, hlen, fun m => ?_⟩
    · have hs' : s < (specOps before {}).gps.length := by rw [← hi.rel.gps]; exact hs
      rw [groups, groups, after_eq, hi'.rel.gps, hi.rel.gps, e, foldl_mulPush_gps _ (by simp [AWorld.new]; omega) (by simp [AWorld.new]), if_neg (by omega),
        AWorld.new, List.getElem?_append_left hs']
    · rw [after_eq, C32_result before p [q] _ (.inl ⟨q, o, rfl, .inr rfl⟩) hr]; simp
  | _ => exact ho.elim

end Stheno
