import Verif.Ops

/-!
# What a user can observe of the graph

Observers used in the statements of properties. None of them refers to the specification machine.
-/

namespace Stheno

/-- What `measure.kernels[p, q]` returns (`stheno/model/measure.py:41`), `none` if it raises. -/
def kernelAt (w : World) (m : MId) (p q : PId) : Option KExpr :=
  match getK m p q w with
  | .ok k _ => some k
  | .error _ _ => none

/-- What `measure.means[p]` returns (`stheno/model/measure.py:40`), `none` if it raises. -/
def meanAt (w : World) (m : MId) (p : PId) : Option MExpr :=
  match getM m p w with
  | .ok k _ => some k
  | .error _ _ => none

/-- `p` is in `measure.ps` (`stheno/model/measure.py:38`). -/
def Attached (w : World) (m : MId) (p : PId) : Prop := ∃ s, w.ms[m]? = some s ∧ p ∈ s.ps

/-- A way to compute whether a process is attached. -/
theorem attached_iff {w : World} {m : MId} {p : PId} :
    Attached w m p ↔ (w.ms[m]?).any (fun s => s.ps.contains p) = true := by
  unfold Attached
  cases w.ms[m]? <;> simp

/-- `p._measures` (`stheno/model/gp.py:72`). -/
def groups (w : World) (p : PId) : List MId := (w.gps[p]?).getD []

/-- The measure object `m` exists. -/
def HasMeasure (w : World) (m : MId) : Prop := m < w.ms.length

/-- What `measure[name]` returns, `none` if it raises. -/
def gpNamed (w : World) (m : MId) (n : String) : Option PId :=
  match byName m n w with
  | .ok p _ => some p
  | .error _ _ => none

/-- What `measure[p]` returns, `none` if it raises. -/
def nameAt (w : World) (m : MId) (p : PId) : Option String :=
  match nameOf m p w with
  | .ok n _ => some n
  | .error _ _ => none

/-- The exception an operation raises, `none` if it returns. -/
noncomputable def Op.raises (o : Op) (w : World) : Option Err :=
  match o.run w with
  | .ok _ _ => none
  | .error e _ => some e

/-- The state in which a program leaves the heap, whether it returned or raised. -/
def stateAfter {σ α : Type} : EStateM.Result Err σ α → σ
  | .ok _ w => w
  | .error _ w => w

/-- The processes observed by an observation. -/
def Obs.refs : Obs → List PId
  | .exact p _ _ _ => [p]
  | .pseudo pu p _ => [pu, p]

/-- `_compute` accepts the noise of the observation (`stheno/model/observations.py:293-297`). -/
def Obs.noiseOK : Obs → Prop
  | .exact _ _ _ _ => True
  | .pseudo _ _ o => o.noiseX.isDiagonal = true

/-- A program conditions measures only on processes that are attached to them, with noise that the
observation class accepts. -/
def Proper (ops : List Op) : Prop :=
  ∀ before m obs after, ops = before ++ Op.condition m obs :: after →
    obs.noiseOK ∧ ∀ p ∈ obs.refs, Attached (runOps before {}) m p

/-- Two heaps that no user can tell apart: the same objects, attachments, names, defaults, rules, and
the same answer to every lookup. They may differ in what is cached. -/
structure Same (w w' : World) : Prop where
  measures : w.ms.length = w'.ms.length
  groups : w.gps = w'.gps
  default : w.default = w'.default
  meas : ∀ (m : MId) s s', w.ms[m]? = some s → w'.ms[m]? = some s' →
    s.ps = s'.ps ∧ s.pids = s'.pids ∧ s.gpsByName = s'.gpsByName ∧ s.namesByGp = s'.namesByGp ∧
    s.prevDefault = s'.prevDefault ∧ s.kernels.rules = s'.kernels.rules ∧
    s.kernels.leftRules = s'.kernels.leftRules ∧ s.kernels.rightRules = s'.kernels.rightRules ∧
    s.means.rules = s'.means.rules
  kernels : ∀ m p q, kernelAt w m p q = kernelAt w' m p q
  means : ∀ m p, meanAt w m p = meanAt w' m p

/-- Operations that only read. -/
def Op.isRead : Op → Bool
  | .getM _ _ | .getK _ _ _ => true
  | _ => false

end Stheno
