/-!
# Lazy vectors and matrices (`stheno/lazy.py`)

Generic containers used by the graph machine. `V` is the type of values and `B` the type of
builders. Python builders are closures; here a builder is a piece of data of type `B` and callers
supply an interpreter. Indices are object identities, modelled as natural numbers.
-/

namespace Stheno

/-- `LazyVector` (`stheno/lazy.py:72-97`, state from `LazyTensor.__init__` 34-36 and 75-77).
`store` is the dictionary `_store` as an association list, newest binding first; the keys, one-tuples
in Python, are plain indices here. `rules` is `_rules` in the order of addition. Domains are
`frozenset`s, modelled as lists of which only membership is used. -/
structure LazyVec (V B : Type) where
  store : List (Nat × V) := []
  rules : List (List Nat × B) := []

/-- `LazyMatrix` (`stheno/lazy.py:100-107`). Same conventions as `LazyVec`. -/
structure LazyMat (V BU BL BR : Type) where
  store : List ((Nat × Nat) × V) := []
  rules : List (List Nat × BU) := []
  leftRules : List (Nat × List Nat × BL) := []
  rightRules : List (Nat × List Nat × BR) := []

namespace LazyVec
variable {V B : Type}

/-- `LazyTensor._set` (`stheno/lazy.py:53-54`). -/
def set (l : LazyVec V B) (i : Nat) (v : V) : LazyVec V B :=
  { l with store := (i, v) :: l.store }

/-- `LazyVector.add_rule` (`stheno/lazy.py:79-90`). The domain is copied (`frozenset(indices)`),
which is what passing a value amounts to here. -/
def addRule (l : LazyVec V B) (dom : List Nat) (b : B) : LazyVec V B :=
  { l with rules := l.rules ++ [(dom, b)] }

/-- The store part of `LazyTensor._get` (`stheno/lazy.py:57-60`). -/
def find (l : LazyVec V B) (i : Nat) : Option V := l.store.lookup i

/-- The search in `LazyVector._build` (`stheno/lazy.py:92-97`): the first rule whose domain
contains the index; `none` is the `RuntimeError` of line 97. -/
def builder (l : LazyVec V B) (i : Nat) : Option B :=
  (l.rules.find? (fun r => r.1.contains i)).map (·.2)

/-- `LazyTensor._get` (`stheno/lazy.py:56-65`) for builders without side effects, interpreted by
`run`; `none` means that the builder raised. On failure nothing is stored. -/
def get (run : B → Nat → Option V) (l : LazyVec V B) (i : Nat) : Option V × LazyVec V B :=
  match l.find i with
  | some v => (some v, l)
  | none =>
    match (l.builder i).bind (fun b => run b i) with
    | some v => (some v, l.set i v)
    | none => (none, l)

end LazyVec

/-- Which builder a lazy matrix calls and with which arguments. -/
inductive Build (BU BL BR : Type) where
  /-- `builder(i_left, i_right)`, line 156 -/
  | univ (b : BU) (i j : Nat)
  /-- `builder(i_right)`, line 161 -/
  | left (b : BL) (j : Nat)
  /-- `builder(i_left)`, line 166 -/
  | right (b : BR) (i : Nat)

namespace LazyMat
variable {V BU BL BR : Type}

/-- `LazyTensor._set` (`stheno/lazy.py:53-54`); `kernels[p] = k` sets the index `(p, p)`
(`_expand_key`, 43-45). -/
def set (l : LazyMat V BU BL BR) (i j : Nat) (v : V) : LazyMat V BU BL BR :=
  { l with store := ((i, j), v) :: l.store }

/-- `LazyMatrix.add_rule` (`stheno/lazy.py:109-120`). -/
def addRule (l : LazyMat V BU BL BR) (dom : List Nat) (b : BU) : LazyMat V BU BL BR :=
  { l with rules := l.rules ++ [(dom, b)] }

/-- `LazyMatrix.add_left_rule` (`stheno/lazy.py:122-134`). -/
def addLeftRule (l : LazyMat V BU BL BR) (i : Nat) (dom : List Nat) (b : BL) :
    LazyMat V BU BL BR :=
  { l with leftRules := l.leftRules ++ [(i, dom, b)] }

/-- `LazyMatrix.add_right_rule` (`stheno/lazy.py:136-148`). -/
def addRightRule (l : LazyMat V BU BL BR) (i : Nat) (dom : List Nat) (b : BR) :
    LazyMat V BU BL BR :=
  { l with rightRules := l.rightRules ++ [(i, dom, b)] }

/-- The store part of `LazyTensor._get` (`stheno/lazy.py:57-60`). -/
def find (l : LazyMat V BU BL BR) (i j : Nat) : Option V := l.store.lookup (i, j)

/-- The search in `LazyMatrix._build` (`stheno/lazy.py:150-168`): universal rules, then left rules,
then right rules, each in the order of addition; `none` is the `RuntimeError` of line 168. -/
def builder (l : LazyMat V BU BL BR) (i j : Nat) : Option (Build BU BL BR) :=
  match l.rules.find? (fun r => r.1.contains i && r.1.contains j) with
  | some r => some (.univ r.2 i j)
  | none =>
    match l.leftRules.find? (fun r => i == r.1 && r.2.1.contains j) with
    | some r => some (.left r.2.2 j)
    | none =>
      match l.rightRules.find? (fun r => r.2.1.contains i && j == r.1) with
      | some r => some (.right r.2.2 i)
      | none => none

/-- `LazyTensor._get` (`stheno/lazy.py:56-65`) for builders without side effects. -/
def get (run : Build BU BL BR → Option V) (l : LazyMat V BU BL BR) (i j : Nat) :
    Option V × LazyMat V BU BL BR :=
  match l.find i j with
  | some v => (some v, l)
  | none =>
    match (l.builder i j).bind run with
    | some v => (some v, l.set i j v)
    | none => (none, l)

end LazyMat

end Stheno
