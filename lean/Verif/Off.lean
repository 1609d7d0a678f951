import Verif.Positive

/-!
# Programs that can be called anywhere

The domains of `Verif.Returns` for programs in which single-output processes, all but the processes in a set `C`, can be
called at all rows. The conditions are simpler then.
-/

namespace Stheno

open Matrix

/-- All processes but those in `C` can be called at all rows. -/
def off (C : PId → Prop) : Dom := fun p _ => ¬ C p

section
variable {C : PId → Prop} {ops : List Op} {p : PId} {xs : List Pt}

theorem rows_off (h : ¬ C p) : Rows (off C p) xs := ⟨⟨[], h⟩, fun _ _ => h⟩

theorem live_off : Live (off C) p ↔ ¬ C p := ⟨fun ⟨_, h⟩ => h, fun h => ⟨[], h⟩⟩

/-- The processes that cannot be called at numeric inputs, such as cross processes. -/
def Dead (G : Dom) (p : PId) : Prop := ¬ Live G p

theorem Rows.alive {G : Dom} (h : Rows (G p) xs) : ¬ Dead G p := not_not.2 h.1

theorem dead_off : Dead (off C) = C := by
  funext p
  exact propext ((not_congr live_off).trans not_not)

/-- Transformations that apply to all rows. -/
def InTr.Total : InTr → Prop
  | .none | .shift (.scalar _) | .stretch (.scalar _) | .map _ => True
  | _ => False

/-- Functions that return at all numeric inputs. -/
def Fn.TotalOff (C : PId → Prop) : Fn → Prop
  | .meanOf _ q => ¬ C q
  | f => f.Plain

/-- Definitions of single-output processes whose means and kernels return at all numeric inputs, where `C` are the
processes left out, such as cross processes. -/
def ProcDef.TotalOff (C : PId → Prop) : ProcDef → Prop
  | .indep mean k => mean.Plain ∧ k.Plain
  | .addFn p f => ¬ C p ∧ f.Plain
  | .fmul p f => ¬ C p ∧ f.TotalOff C
  | .pre p t => ¬ C p ∧ t.Total
  | .sum p q | .rem p q => ¬ C p ∧ ¬ C q
  | .scale p _ | .copy p => ¬ C p
  | .diff _ _ | .custom _ _ _ | .cross _ => False

theorem InTr.Total.maps {t : InTr} (ht : t.Total) {D E : Pt → Prop} (h : ∀ x, E x) : t.Maps D E := by
  intro x _
  cases t with
  | none => exact ⟨_, rfl, h _⟩
  | map g => exact ⟨_, rfl, h _⟩
  | shift a =>
    cases a with
    | vec => exact ht.elim
    | scalar c => exact ⟨_, rfl, h _⟩
  | stretch a =>
    cases a with
    | vec => exact ht.elim
    | scalar c => exact ⟨_, rfl, h _⟩
  | _ => exact ht.elim

theorem ProcDef.TotalOff.total {d : ProcDef} (h : d.TotalOff C) {D : Pt → Prop} : d.Total (off C) D := by
  cases d with
  | indep mean k => exact h
  | addFn p f => exact ⟨fun _ _ => h.1, h.2⟩
  | fmul p f =>
    refine ⟨fun _ _ => h.1, ?_⟩
    have h2 := h.2
    cases f with
    | meanOf m q => exact fun _ _ => h2
    | _ => exact h2
  | pre p t => exact h.2.maps fun _ => h.1
  | sum p q => exact ⟨fun _ _ => h.1, fun _ _ => h.2⟩
  | rem p q => exact ⟨fun _ _ => h.1, fun _ _ => h.2⟩
  | scale p c => exact fun _ _ => h
  | copy p => exact fun _ _ => h
  | _ => exact h.elim

/-- A numeric input. -/
def IsNum (x : Input) : Prop := ∃ xs, x = .num xs

/-- A tuple, not empty, of FDDs of some of `ps` at numeric inputs. -/
def TupOff (ps : List PId) (x : Input) : Prop := ∃ xs, xs ≠ [] ∧ x = .tup xs ∧ ∀ a ∈ xs, ∃ p ∈ ps, ∃ ys, a = .fdd p (.num ys)

/-- Observations that a program can condition on. -/
def ObservableOff (C : PId → Prop) (before : List Op) (m : MId) (p : PId) (z : Input) : Prop :=
  (IsNum z ∧ Attached (runOps before {}) m p ∧ ¬ C p) ∨
  ∃ b1 qs ord b2, before = b1 ++ .cross qs ord :: b2 ∧ p = (runOps b1 {}).gps.length ∧
    Attached (runOps (b1 ++ [.cross qs ord]) {}) m p ∧ TupOff qs z ∧ (∀ q ∈ qs, ¬ C q) ∧
    ∀ i ∈ members (runOps before {}) m, ¬ C i → i ∈ members (runOps b1 {}) m

/-- Observations of the right sizes that a program can condition on. -/
def ObsFitsOff (C : PId → Prop) (before : List Op) (m : MId) : Obs → Prop
  | .exact p z noise y => noise.r = numElements z ∧ noise.c = numElements z ∧ y.length = numElements z ∧ ObservableOff C before m p z
  | .pseudo pu p o => o.noiseX.isDiagonal = true ∧ o.Fit ∧ ObservableOff C before m pu o.z ∧ ObservableOff C before m p o.x

theorem TupOff.tup {qs : List PId} {z : Input} (h : TupOff qs z) (hq : ∀ q ∈ qs, ¬ C q) : TupOf (off C) qs z := by
  obtain ⟨xs, x0, rfl, hx⟩ := h
  refine ⟨xs, x0, rfl, fun a ha => ?_⟩
  obtain ⟨p, hp, ys, rfl⟩ := hx a ha
  exact ⟨p, hp, ys, rfl, rows_off (hq p hp)⟩

theorem ObservableOff.observable {before : List Op} {m : MId} {z : Input} (h : ObservableOff C before m p z) :
    Observable (off C) before m p z := by
  rcases h with ⟨⟨xs, rfl⟩, ha, hp⟩ | ⟨b1, qs, ord, b2, h1, h2, h3, h4, h5, h6⟩
  · exact .inl ⟨⟨xs, rfl, rows_off hp⟩, ha⟩
  · exact .inr ⟨b1, qs, ord, b2, h1, h2, h3, h4.tup h5, fun i hi li => h6 i hi (live_off.1 li)⟩

theorem ObsFitsOff.fits {before : List Op} {m : MId} {obs : Obs} (h : ObsFitsOff C before m obs) : ObsFits (off C) before m obs := by
  cases obs with
  | exact p z noise y => exact ⟨h.1, h.2.1, h.2.2.1, h.2.2.2.observable⟩
  | pseudo pu p o => exact ⟨h.1, h.2.1, h.2.2.1.observable, h.2.2.2.observable⟩

/-- Programs in which all calls at numeric inputs return, for all processes but `C`, if covariance matrices of
observations are positive definite. -/
structure TameOff (C : PId → Prop) (ops : List Op) : Prop where
  /-- operations are elementary -/
  elem : ∀ o ∈ ops, o.Elem
  /-- processes have definitions that return -/
  defs : ∀ before o after, ops = before ++ o :: after → ∀ m, ∀ e ∈ o.written (runOps before {}).gps.length m,
    ¬ C e.1 → e.2.TotalOff C
  /-- measures are only conditioned on observations of the right sizes -/
  obs : ∀ before m obs after, ops = before ++ .condition m obs :: after → HasMeasure (runOps before {}) m → ObsFitsOff C before m obs
  /-- the covariance of the noise of observations is positive semi-definite -/
  noise : ∀ m obs, .condition m obs ∈ ops → obs.NoisePSD
  /-- processes that are differentiated are differentiable in mean square, where the derivative is called -/
  smooth : (specOps ops {}).Smooth (off C)

theorem TameOff.tame (h : TameOff C ops) : Tame (off C) ops where
  elem := h.elem
  defs before o after e m d hd hl := (h.defs before o after e m d hd (live_off.1 hl)).total
  obs before m obs after e hm := (h.obs before m obs after e hm).fits
  noise := h.noise
  smooth := h.smooth

end

end Stheno
