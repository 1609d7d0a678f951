import Mathlib.Analysis.Matrix.Order
import Mathlib.Analysis.Calculus.Deriv.Comp
import Mathlib.Analysis.Calculus.Deriv.Slope
import Verif.Update
import Verif.Model
import Verif.EvalBig

/-!
# Every elementary program has a reading

The canonical random variables satisfy the laws. So the hypothesis of the soundness theorems, that there are random
variables which satisfy the equations of the program, can always be met: the equations are never contradictory.
-/

namespace Stheno

open Matrix

/-- Definitions for which canonical variables are constructed. -/
def ProcDef.Elem : ProcDef → Prop
  | .indep mean k => mean.Plain ∧ k.Plain ∧ IsPSD k.val
  | .addFn _ f => f.Plain
  | .pre _ t => ∀ j, t ≠ .toFdd j
  | .cross ps => ps ≠ []
  | .fmul _ _ | .sum _ _ | .scale _ _ | .copy _ | .diff _ _ | .rem _ _ => True
  | .custom _ _ _ => False

/-- States for which canonical variables are constructed. -/
structure AWorld.Elem (L : AWorld) : Prop where
  wf : WfMs L
  defs : ∀ (m : MId) a, L.ms[m]? = some a → ∀ e ∈ a.defs, e.2.Elem
  means : ∀ (m : MId) a es r p n q es', L.ms[m]? = some a → a.defs = es ++ (r, .fmul p (.meanOf n q)) :: es' →
    n = m ∧ q ∈ knownOf a.basePs es'

/-- Every conditioning in the state observes values that are defined, with noise of the right size. -/
def AWorld.Sized (L : AWorld) : Prop :=
  ∀ (m : MId) a u, L.ms[m]? = some a → a.base = some u → u.obs.Sized ((canon L).F u.prior)

/-- The measure with a given name; measures that do not exist have no processes. -/
def IsMeas (L : AWorld) (m : MId) (a : AMeas) : Prop := L.ms[m]? = some a ∨ (L.ms[m]? = none ∧ a = {})

/-- Values of the processes of the prior. -/
noncomputable def baseVal (L : AWorld) (a : AMeas) (p : PId) (x : Input) : Option (List RV) :=
  match a.base with
  | none => none
  | some u => if p ∈ a.basePs then (canon L).F u.prior p x else none

/-- The values of FDDs in an input. -/
def innerVals (F : PId → RF RV) : Input → PId → Option (List RV)
  | .fdd _ y, p => F p y
  | _, _ => none

section
variable {S : SO RV} {m : MId}

theorem valD_skip {T : PId → Option (List RV)} {base : PId → Input → Option (List RV)} {es es' : List (PId × ProcDef)}
    {p : PId} (h : p ∉ es.map (·.1)) (x : Input) : valD S m T base (es ++ es') p x = valD S m T base es' p x := by
  induction es with
  | nil => rfl
  | cons e es ih =>
    obtain ⟨r, d⟩ := e
    simp only [List.map_cons, List.mem_cons, not_or] at h
    show (if p = r then _ else _) = _
    rw [if_neg h.1]
    exact ih h.2

theorem valD_self {T : PId → Option (List RV)} {base : PId → Input → Option (List RV)} {es' : List (PId × ProcDef)}
    {r : PId} {d : ProcDef} (x : Input) :
    valD S m T base ((r, d) :: es') r x = defVal S m r T (valD S m T base es') d x := if_pos rfl

variable {base : PId → Input → Option (List RV)} {es : List (PId × ProcDef)}

theorem vals_atom {x : Input} (hx : x.IsAtom) (p : PId) :
    vals S m base es x p = valD S m (innerVals (fun p x => vals S m base es x p) x) base es p x := by
  cases x with
  | num xs => rw [vals]; rfl
  | fdd q y => rw [vals]; rfl
  | tup => exact hx.elim

theorem valsL_eq (xs : List Input) (p : PId) :
    valsL S m base es xs p = (xs.mapM fun x => vals S m base es x p).map List.flatten := by
  induction xs with
  | nil => simp [valsL]
  | cons x xs ih =>
    rw [valsL, ih, List.mapM_cons]
    cases vals S m base es x p with
    | none => rfl
    | some vs =>
      cases xs.mapM fun x => vals S m base es x p with
      | none => rfl
      | some ws => rfl

theorem vals_tup (xs : List Input) (p : PId) :
    vals S m base es (.tup xs) p = (xs.mapM fun x => vals S m base es x p).map List.flatten := by
  rw [vals, valsL_eq]

end

section
variable {L : AWorld} {m : MId} {a : AMeas}

theorem canon_S_none (h : (L.ms[m]?).bind (·.base) = none) : (canon L).S m = so0 := by
  show (space L m).1 = _
  rw [space]
  cases ha : L.ms[m]? with
  | none => rfl
  | some a =>
    rw [ha] at h
    simp only
    have h : a.base = none := h
    rw [h]

theorem canon_S_some (wf : WfMs L) (ha : L.ms[m]? = some a) {u : URule} (hu : a.base = some u) :
    (canon L).S m = ((canon L).S u.prior).given ((canon L).F u.prior) u.obs := by
  show (space L m).1 = _
  rw [space, ha]
  simp only
  rw [hu]
  simp only
  rw [dif_pos ((wf m a ha).base_lt u hu)]
  rfl

/-- The values in a measure, in terms of the values in its prior. -/
theorem canon_F (wf : WfMs L) (h : IsMeas L m a) : (canon L).F m = fun p x => vals ((canon L).S m) m (baseVal L a) a.defs x p := by
  rcases h with ha | ⟨ha, rfl⟩
  · cases hb : a.base with
    | none =>
      rw [canon_S_none (by rw [ha]; exact hb)]
      have : baseVal L a = fun _ _ => none := by
        funext p x; unfold baseVal; rw [hb]
      rw [this]
      show (space L m).2 = _
      rw [space, ha]
      simp only
      rw [hb]
    | some u =>
      rw [canon_S_some wf ha hb]
      have : baseVal L a = fun p x => if p ∈ a.basePs then (canon L).F u.prior p x else none := by
        funext p x; unfold baseVal; rw [hb]
      rw [this]
      show (space L m).2 = _
      rw [space, ha]
      simp only
      rw [hb]
      simp only
      rw [dif_pos ((wf m a ha).base_lt u hb)]
      rfl
  · rw [canon_S_none (by rw [ha]; rfl)]
    show (space L m).2 = _
    rw [space, ha]
    rfl

theorem isMeas_exists (L : AWorld) (m : MId) : ∃ a, IsMeas L m a := by
  cases h : L.ms[m]? with
  | none => exact ⟨{}, .inr ⟨h, rfl⟩⟩
  | some a => exact ⟨a, .inl h⟩

theorem canon_tup (wf : WfMs L) (m : MId) (p : PId) (xs : List Input) :
    (canon L).F m p (.tup xs) = (xs.mapM fun x => (canon L).F m p x).map List.flatten := by
  obtain ⟨a, ha⟩ := isMeas_exists L m
  rw [canon_F wf ha]
  exact vals_tup xs p

theorem canon_atom (wf : WfMs L) (h : IsMeas L m a) {x : Input} (hx : x.IsAtom) (p : PId) :
    (canon L).F m p x = valD ((canon L).S m) m (innerVals ((canon L).F m) x) (baseVal L a) a.defs p x := by
  have := congrFun (congrFun (canon_F wf h) p) x
  rw [this, vals_atom hx, ← canon_F wf h]

theorem IsMeas.elem (hL : L.Elem) (h : IsMeas L m a) : ∀ e ∈ a.defs, e.2.Elem := by
  rcases h with h | ⟨_, rfl⟩
  · exact hL.defs m a h
  · simp

/-- Facts about measures, from facts about their priors. -/
theorem canon_ind (hL : L.Elem) {P : MId → AMeas → Prop}
    (h : ∀ m a, IsMeas L m a → (∀ u, a.base = some u → ∀ b, IsMeas L u.prior b → P u.prior b) → P m a) : ∀ m a, IsMeas L m a → P m a := by
  intro m
  induction m using Nat.strong_induction_on with
  | _ m ih =>
    intro a ha
    refine h m a ha fun u hu b hb => ?_
    rcases ha with ha | ⟨_, rfl⟩
    · exact ih u.prior ((hL.wf m a ha).base_lt u hu) b hb
    · cases hu

theorem baseVal_some {p : PId} {x : Input} {vs : List RV} (h : baseVal L a p x = some vs) :
    ∃ u, a.base = some u ∧ p ∈ a.basePs ∧ (canon L).F u.prior p x = some vs := by
  unfold baseVal at h
  cases hb : a.base with
  | none => rw [hb] at h; cases h
  | some u =>
    rw [hb] at h
    simp only at h
    split at h
    · next hp => exact ⟨u, rfl, hp, h⟩
    · cases h

end

theorem mapM_congr {α β : Type} {f g : α → Option β} {l : List α} (h : ∀ x ∈ l, f x = g x) : l.mapM f = l.mapM g := by
  induction l with
  | nil => rfl
  | cons a l ih => rw [List.mapM_cons, List.mapM_cons, h a (by simp), ih fun x hx => h x (by simp [hx])]

/-! ## Sizes -/

theorem flatten_size {g : PId → Option (List RV)} {N : ℕ} {ps : List PId} {vss : List (List RV)} (h0 : ps ≠ [])
    (hg : ∀ p vs, g p = some vs → N ≤ vs.length) (h : ps.mapM g = some vss) : N ≤ vss.flatten.length := by
  cases ps with
  | nil => exact (h0 rfl).elim
  | cons p ps =>
    obtain ⟨b, bs, hb, hbs, rfl⟩ := mapM_cons_some h
    rw [List.flatten_cons, List.length_append]
    exact (hg p b hb).trans (Nat.le_add_right _ _)

theorem Fn.vals_length {S : SO RV} {g : PId → Input → Option (List RV)} {f : Fn} {x : Input} {n : ℕ} {us : List ℝ}
    (h : f.vals S g x n = some us) : us.length = n := by
  cases f with
  | user f =>
    cases x with
    | num xs =>
      simp only [Fn.vals] at h
      split at h
      · next hl => cases h; simpa using hl
      · cases h
    | fdd => cases h
    | tup => cases h
  | const c => cases h; simp
  | meanOf m q =>
    obtain ⟨t, _, h⟩ := bind_some (by rwa [Fn.vals] at h)
    split at h
    · next hl => cases h; exact hl
    · cases h

theorem zipAdd_some {V : Type} [AddCommGroup V] [Module ℝ V] {vs ws rs : List V} (h : zipAdd vs ws = some rs) :
    vs.length = ws.length ∧ rs = List.zipWith (· + ·) vs ws := by
  unfold zipAdd at h
  split at h
  · next hl => cases h; exact ⟨hl, rfl⟩
  · cases h

section
variable {S : SO RV} {m : MId} {r : PId} {T : PId → Option (List RV)} {g base : PId → Input → Option (List RV)}

theorem defVal_size {N : ℕ} (hT : ∀ q ws, T q = some ws → N ≤ ws.length)
    (hg : ∀ p x vs, numElements x = N → g p x = some vs → N ≤ vs.length) {d : ProcDef} (hd : d.Elem) {x : Input}
    (hx : numElements x = N) {vs : List RV} (h : defVal S m r T g d x = some vs) : N ≤ vs.length := by
  cases d with
  | indep mean k =>
    cases x with
    | num xs => cases h; rw [← hx]; simp [numElements]
    | fdd => cases h
    | tup => cases h
  | addFn p f =>
    obtain ⟨v, hv, h⟩ := bind_some (by rwa [defVal] at h)
    obtain ⟨u, hu, h⟩ := bind_some h
    cases h
    rw [List.length_zipWith, Fn.vals_length hu, min_self]
    exact hg p x v hx hv
  | sum p q =>
    obtain ⟨v, hv, h⟩ := bind_some (by rwa [defVal] at h)
    obtain ⟨u, hu, h⟩ := bind_some h
    obtain ⟨hl, rfl⟩ := zipAdd_some h
    rw [List.length_zipWith, ← hl, min_self]
    exact hg p x v hx hv
  | scale p c =>
    rw [defVal] at h
    obtain ⟨v, hv, rfl⟩ := Option.map_eq_some_iff.1 h
    rw [List.length_map]
    exact hg p x v hx hv
  | fmul p f =>
    obtain ⟨v, hv, h⟩ := bind_some (by rwa [defVal] at h)
    obtain ⟨u, hu, h⟩ := bind_some h
    cases h
    rw [List.length_zipWith, Fn.vals_length hu, min_self]
    exact hg p x v hx hv
  | pre p t =>
    obtain ⟨x', hx', h⟩ := bind_some (by rwa [defVal] at h)
    exact hg p x' vs (by rw [InTr.apply_numElements hx', hx]) h
  | cross ps =>
    cases x with
    | num xs =>
      obtain ⟨vss, hv, rfl⟩ := Option.map_eq_some_iff.1 h
      exact flatten_size hd (fun p vs => hg p _ vs hx) hv
    | fdd q y =>
      simp only [defVal] at h
      split at h
      · exact hT q vs h
      · cases h
    | tup => cases h
  | copy p => rw [defVal] at h; exact hg p x vs hx h
  | diff p d =>
    cases x with
    | num xs =>
      simp only [defVal] at h
      rw [mapM_length h, ← hx, numElements]
    | fdd => cases h
    | tup => cases h
  | rem p q =>
    cases x with
    | num xs =>
      obtain ⟨v, hv, h⟩ := bind_some (by rwa [defVal] at h)
      obtain ⟨u, hu, h⟩ := bind_some h
      split at h
      · cases h; rw [← hx]; simp [numElements]
      · cases h
    | fdd => cases h
    | tup => cases h
  | custom => exact hd.elim

theorem valD_size {N : ℕ} (hT : ∀ q ws, T q = some ws → N ≤ ws.length)
    (hb : ∀ p x vs, numElements x = N → base p x = some vs → N ≤ vs.length) :
    (es : List (PId × ProcDef)) → (∀ e ∈ es, e.2.Elem) → ∀ p x vs, numElements x = N →
      valD S m T base es p x = some vs → N ≤ vs.length
  | [], _, p, x, vs, hx, h => hb p x vs hx h
  | (r, d) :: es, he, p, x, vs, hx, h => by
    have ih := valD_size hT hb es fun e h => he e (by simp [h])
    simp only [valD] at h
    split at h
    · exact defVal_size hT ih (he (r, d) (by simp)) hx h
    · exact ih p x vs hx h

end

section
variable {L : AWorld} (hL : L.Elem)
include hL

theorem canon_size : ∀ m a, IsMeas L m a → ∀ x p vs, (canon L).F m p x = some vs → numElements x ≤ vs.length := by
  refine canon_ind hL fun m a ha ih x => ?_
  have hb : ∀ p x vs, baseVal L a p x = some vs → numElements x ≤ vs.length := fun p x vs h => by
    obtain ⟨u, hu, -, h⟩ := baseVal_some h
    obtain ⟨b, hb⟩ := isMeas_exists L u.prior
    exact ih u hu b hb x p vs h
  induction x using Input.ind with
  | num xs =>
    intro p vs h
    rw [canon_atom hL.wf ha (x := .num xs) trivial] at h
    exact valD_size (N := xs.length) (fun _ _ h => by cases h) (fun p x vs hx h => hx ▸ hb p x vs h) a.defs (ha.elem hL) p _ vs rfl h
  | fdd q y ih =>
    intro p vs h
    rw [canon_atom hL.wf ha (x := .fdd q y) trivial] at h
    exact valD_size (N := numElements y) (fun q ws h => ih q ws h) (fun p x vs hx h => hx ▸ hb p x vs h) a.defs (ha.elem hL) p (.fdd q y) vs rfl h
  | tup xs ih =>
    intro p vs h
    rw [canon_tup hL.wf] at h
    obtain ⟨vss, hv, rfl⟩ := Option.map_eq_some_iff.1 h
    show numElementsL xs ≤ _
    clear h
    induction xs generalizing vss with
    | nil => exact Nat.zero_le _
    | cons x xs ih' =>
      obtain ⟨b, bs, hb, hbs, rfl⟩ := mapM_cons_some hv
      rw [List.flatten_cons, List.length_append]
      exact Nat.add_le_add (ih x (by simp) p b hb) (ih' (fun y hy => ih y (by simp [hy])) bs hbs)

end

/-! ## Values row by row -/

/-- Single-output values are given row by row. -/
def RowWise (g : PId → Input → Option (List RV)) : Prop :=
  ∀ p xs vs, g p (.num xs) = some vs → vs.length = xs.length →
    ∀ (i : ℕ) x v, xs[i]? = some x → vs[i]? = some v → g p (.num [x]) = some [v]

theorem mapM_get {α β : Type} {f : α → Option β} {l : List α} {l' : List β} (h : l.mapM f = some l') {i : ℕ} {x : α}
    (hx : l[i]? = some x) : ∃ y, l'[i]? = some y ∧ f x = some y := by
  induction l generalizing l' i with
  | nil => cases hx
  | cons a l ih =>
    obtain ⟨b, bs, hb, hbs, rfl⟩ := mapM_cons_some h
    cases i with
    | zero => cases hx; exact ⟨b, rfl, hb⟩
    | succ i => exact ih hbs hx

/-- Input transformations work row by row. -/
theorem InTr.apply_row {t : InTr} (ht : ∀ j, t ≠ .toFdd j) {xs : List Pt} {x' : Input}
    (h : t.apply (.num xs) = some x') : ∃ ys, x' = .num ys ∧ ys.length = xs.length ∧
      ∀ (i : ℕ) x, xs[i]? = some x → ∃ y, ys[i]? = some y ∧ t.apply (.num [x]) = some (.num [y]) := by
  cases t with
  | none => cases h; exact ⟨xs, rfl, rfl, fun i x hx => ⟨x, hx, rfl⟩⟩
  | shift a =>
    obtain ⟨ys, hy, rfl⟩ := Option.map_eq_some_iff.1 h
    refine ⟨ys, rfl, (mapM_length hy), fun i x hx => ?_⟩
    obtain ⟨y, h1, h2⟩ := mapM_get hy hx
    refine ⟨y, h1, ?_⟩
    simp only [InTr.apply, List.mapM_cons, List.mapM_nil, h2]; rfl
  | stretch a =>
    obtain ⟨ys, hy, rfl⟩ := Option.map_eq_some_iff.1 h
    refine ⟨ys, rfl, (mapM_length hy), fun i x hx => ?_⟩
    obtain ⟨y, h1, h2⟩ := mapM_get hy hx
    refine ⟨y, h1, ?_⟩
    simp only [InTr.apply, List.mapM_cons, List.mapM_nil, h2]; rfl
  | select ds =>
    obtain ⟨ys, hy, rfl⟩ := Option.map_eq_some_iff.1 h
    refine ⟨ys, rfl, (mapM_length hy), fun i x hx => ?_⟩
    obtain ⟨y, h1, h2⟩ := mapM_get hy hx
    refine ⟨y, h1, ?_⟩
    simp only [InTr.apply, List.mapM_cons, List.mapM_nil, h2]; rfl
  | map g =>
    cases h
    exact ⟨xs.map g, rfl, by simp, fun i x hx => ⟨g x, by simp [hx], rfl⟩⟩
  | toFdd j => exact (ht j rfl).elim

theorem RowWise.get {g : PId → Input → Option (List RV)} (hg : RowWise g) {p : PId} {xs : List Pt} {vs : List RV}
    (h : g p (.num xs) = some vs) (hl : vs.length = xs.length) {i : ℕ} {x : Pt} (hx : xs[i]? = some x) :
    ∃ v, vs[i]? = some v ∧ g p (.num [x]) = some [v] := by
  have hi := (List.getElem?_eq_some_iff.1 hx).1
  have hv : vs[i]? = some (vs[i]'(hl ▸ hi)) := List.getElem?_eq_getElem _
  exact ⟨_, hv, hg p xs vs h hl i x _ hx hv⟩

theorem RowWise.point {g : PId → Input → Option (List RV)} (hg : RowWise g) {p : PId} {xs : List Pt} {vs : List RV}
    (h : g p (.num xs) = some vs) (hl : vs.length = xs.length) : vs = xs.map (pointOf (g p)) := by
  refine List.ext_getElem (by simpa using hl) fun i h1 h2 => ?_
  have hi : i < xs.length := hl ▸ h1
  obtain ⟨v, hv, hp⟩ := hg.get h hl (List.getElem?_eq_getElem hi)
  rw [List.getElem?_eq_getElem h1, Option.some.injEq] at hv
  rw [List.getElem_map, pointOf, hp, hv]

theorem Fn.vals_row {S : SO RV} {g : PId → Input → Option (List RV)} (hg : RowWise g) {f : Fn} {xs : List Pt} {n : ℕ} {us : List ℝ}
    (h : f.vals S g (.num xs) n = some us) {i : ℕ} {x : Pt} (hx : xs[i]? = some x) (hn : xs.length = n) :
    ∃ u, us[i]? = some u ∧ f.vals S g (.num [x]) 1 = some [u] := by
  have hi := (List.getElem?_eq_some_iff.1 hx).1
  cases f with
  | user f =>
    simp only [Fn.vals, if_pos hn] at h
    cases h
    refine ⟨f x, by simp [hx], ?_⟩
    simp [Fn.vals]
  | const c =>
    cases h
    refine ⟨c, ?_, rfl⟩
    rw [List.getElem?_replicate, if_pos (hn ▸ hi)]
  | meanOf m q =>
    obtain ⟨t, ht, h⟩ := bind_some (by rwa [Fn.vals] at h)
    obtain ⟨vs, hv, rfl⟩ := Option.map_eq_some_iff.1 ht
    split at h
    · next hl =>
      cases h
      rw [List.length_map] at hl
      obtain ⟨v, h1, h2⟩ := hg.get hv (hl.trans hn.symm) hx
      refine ⟨S.E v, by rw [List.getElem?_map, h1]; rfl, ?_⟩
      rw [Fn.vals, h2]
      rfl
    · cases h

section
variable {S : SO RV} {m : MId} {r : PId} {T : PId → Option (List RV)} {g base : PId → Input → Option (List RV)}

theorem defVal_rowWise (hs : ∀ p xs vs, g p (.num xs) = some vs → xs.length ≤ vs.length) (hg : RowWise g) {d : ProcDef}
    (hd : d.Elem) (xs : List Pt) (vs : List RV) (h : defVal S m r T g d (.num xs) = some vs)
    (hl : vs.length = xs.length) (i : ℕ) (x : Pt) (v : RV) (hx : xs[i]? = some x) (hv : vs[i]? = some v) :
    defVal S m r T g d (.num [x]) = some [v] := by
  have hi := (List.getElem?_eq_some_iff.1 hx).1
  cases d with
  | indep mean k =>
    cases h
    rw [List.getElem?_map, hx] at hv
    cases hv
    rfl
  | addFn p f =>
    rw [defVal] at h ⊢
    obtain ⟨ws, hw, h⟩ := bind_some h
    obtain ⟨us, hu, h⟩ := bind_some h
    cases h
    rw [List.length_zipWith, Fn.vals_length hu, min_self] at hl
    obtain ⟨w, h1, h2⟩ := hg.get hw hl hx
    obtain ⟨u, h3, h4⟩ := Fn.vals_row hg hu hx hl.symm
    rw [List.getElem?_zipWith, h1, h3] at hv
    cases hv
    rw [h2]
    show (do
      let us ← f.vals S g (.num [x]) 1
      pure (List.zipWith (fun v u => v + u • rvOne) [w] us)) = _
    rw [h4]; rfl
  | sum p q =>
    rw [defVal] at h ⊢
    obtain ⟨ws, hw, h⟩ := bind_some h
    obtain ⟨us, hu, h⟩ := bind_some h
    obtain ⟨hlen, rfl⟩ := zipAdd_some h
    rw [List.length_zipWith, ← hlen, min_self] at hl
    obtain ⟨w, h1, h2⟩ := hg.get hw hl hx
    obtain ⟨u, h3, h4⟩ := hg.get hu (hlen ▸ hl) hx
    rw [List.getElem?_zipWith, h1, h3] at hv
    cases hv
    rw [h2, h4]; rfl
  | scale p c =>
    rw [defVal] at h ⊢
    obtain ⟨ws, hw, rfl⟩ := Option.map_eq_some_iff.1 h
    rw [List.length_map] at hl
    obtain ⟨w, h1, h2⟩ := hg.get hw hl hx
    rw [List.getElem?_map, h1] at hv
    cases hv
    rw [h2]; rfl
  | fmul p f =>
    rw [defVal] at h ⊢
    obtain ⟨ws, hw, h⟩ := bind_some h
    obtain ⟨us, hu, h⟩ := bind_some h
    cases h
    rw [List.length_zipWith, Fn.vals_length hu, min_self] at hl
    obtain ⟨w, h1, h2⟩ := hg.get hw hl hx
    obtain ⟨u, h3, h4⟩ := Fn.vals_row hg hu hx hl.symm
    rw [List.getElem?_zipWith, h1, h3] at hv
    cases hv
    rw [h2]
    show (do
      let us ← f.vals S g (.num [x]) 1
      pure (List.zipWith (fun v u => u • v) [w] us)) = _
    rw [h4]; rfl
  | pre p t =>
    rw [defVal] at h ⊢
    obtain ⟨x', hx', h⟩ := bind_some h
    obtain ⟨ys, rfl, hyl, hrow⟩ := InTr.apply_row hd hx'
    obtain ⟨y, h1, h2⟩ := hrow i x hx
    rw [h2]
    exact hg p ys vs h (by rw [hl, hyl]) i y v h1 hv
  | cross ps =>
    obtain ⟨vss, hvs, rfl⟩ := Option.map_eq_some_iff.1 h
    show (ps.mapM fun p => g p (.num [x])).map List.flatten = _
    match ps, hvs with
    | [p], hvs =>
      obtain ⟨b, bs, hb, hbs, rfl⟩ := mapM_cons_some hvs
      rw [List.mapM_nil] at hbs
      cases hbs
      simp only [List.flatten_cons, List.flatten_nil, List.append_nil] at hl hv
      simp only [List.mapM_cons, List.mapM_nil, hg p xs b hb hl i x v hx hv]; rfl
    | p :: q :: ps, hvs =>
      obtain ⟨b, bs, hb, hbs, rfl⟩ := mapM_cons_some hvs
      obtain ⟨b', bs', hb', hbs', rfl⟩ := mapM_cons_some hbs
      have h1 := hs p _ _ hb
      have h2 := hs q _ _ hb'
      simp only [List.flatten_cons, List.length_append] at hl
      omega
    | [], _ => exact (hd rfl).elim
  | copy p =>
    rw [defVal] at h ⊢
    exact hg p xs vs h hl i x v hx hv
  | diff p d =>
    simp only [defVal] at h ⊢
    obtain ⟨w, hw, e⟩ := mapM_get h hx
    rw [hv] at hw
    cases hw
    rw [List.mapM_cons, e]
    rfl
  | rem p q =>
    simp only [defVal] at h ⊢
    obtain ⟨ws, hw, h⟩ := bind_some h
    obtain ⟨us, hu, h⟩ := bind_some h
    split at h
    · next hl' =>
      cases h
      obtain ⟨w, h1, h2⟩ := hg.get hw hl'.1 hx
      obtain ⟨u, h3, h4⟩ := hg.get hu hl'.2 hx
      rw [List.getElem?_map, hx] at hv
      cases hv
      rw [h2, h4]
      rfl
    · cases h
  | custom => exact hd.elim

theorem valD_rowWise (hT : ∀ q, T q = none) (hb : ∀ p x vs, base p x = some vs → numElements x ≤ vs.length)
    (hg : RowWise base) : (es : List (PId × ProcDef)) → (∀ e ∈ es, e.2.Elem) → RowWise (valD S m T base es)
  | [], _ => hg
  | (r, d) :: es, he => by
    have he' : ∀ e ∈ es, e.2.Elem := fun e h => he e (by simp [h])
    have ih := valD_rowWise hT hb hg es he'
    intro p xs vs h hl i x v hx hv
    show (if p = r then _ else _) = _
    simp only [valD] at h
    split at h
    · next e =>
      rw [if_pos e]
      refine defVal_rowWise (fun p xs vs h => ?_) ih (he (r, d) (by simp)) xs vs h hl i x v hx hv
      exact valD_size (N := xs.length) (fun q ws h => by rw [hT] at h; cases h) (fun p x vs hx h => hx ▸ hb p x vs h)
        es he' p (.num xs) vs rfl h
    · next e => rw [if_neg e]; exact ih p xs vs h hl i x v hx hv

end

section
variable {L : AWorld} (hL : L.Elem)
include hL

theorem canon_rowWise : ∀ m a, IsMeas L m a → RowWise ((canon L).F m) := by
  refine canon_ind hL fun m a ha ih => ?_
  have hb : ∀ p x vs, baseVal L a p x = some vs → numElements x ≤ vs.length := fun p x vs h => by
    obtain ⟨u, hu, -, h⟩ := baseVal_some h
    obtain ⟨b, hb⟩ := isMeas_exists L u.prior
    exact canon_size hL _ b hb x p vs h
  have hr : RowWise (baseVal L a) := fun p xs vs h hl i x v hx hv => by
    obtain ⟨u, hu, hp, h⟩ := baseVal_some h
    obtain ⟨b, hb⟩ := isMeas_exists L u.prior
    have := ih u hu b hb p xs vs h hl i x v hx hv
    unfold baseVal
    rw [hu]
    simp only
    rw [if_pos hp, this]
  intro p xs vs h hl i x v hx hv
  rw [canon_atom hL.wf ha (x := .num xs) trivial] at h
  rw [canon_atom hL.wf ha (x := .num [x]) trivial]
  exact valD_rowWise (T := innerVals ((canon L).F m) (.num xs)) (fun _ => rfl) hb hr a.defs (ha.elem hL) p xs vs h hl i x v hx hv

/-- The canonical values are random functions. -/
theorem canon_ok (m : MId) (p : PId) : ((canon L).F m p).OK where
  tup xs := canon_tup hL.wf m p xs
  size x vs h := by
    obtain ⟨a, ha⟩ := isMeas_exists L m
    exact canon_size hL m a ha x p vs h
  pointwise xs vs h hl i x v hx hv := by
    obtain ⟨a, ha⟩ := isMeas_exists L m
    exact canon_rowWise hL m a ha p xs vs h hl i x v hx hv

end

/-! ## Support -/

theorem zipWith_mem {α β γ : Type} {f : α → β → γ} {P : γ → Prop} {vs : List α} {us : List β}
    (h : ∀ v ∈ vs, ∀ u ∈ us, P (f v u)) : ∀ w ∈ List.zipWith f vs us, P w := by
  induction vs generalizing us with
  | nil => intro w hw; cases hw
  | cons v vs ih =>
    cases us with
    | nil => intro w hw; cases hw
    | cons u us =>
      intro w hw
      rw [List.zipWith_cons_cons, List.mem_cons] at hw
      rcases hw with rfl | hw
      · exact h v (by simp) u (by simp)
      · exact ih (fun v hv u hu => h v (by simp [hv]) u (by simp [hu])) w hw

theorem mapM_mem {α : Type} {g : α → Option (List RV)} {P : RV → Prop} {ps : List α} {vss : List (List RV)}
    (h : ps.mapM g = some vss) (hg : ∀ p ∈ ps, ∀ vs, g p = some vs → ∀ v ∈ vs, P v) : ∀ v ∈ vss.flatten, P v := by
  induction ps generalizing vss with
  | nil => rw [List.mapM_nil] at h; cases h; intro v hv; cases hv
  | cons p ps ih =>
    obtain ⟨b, bs, hb, hbs, rfl⟩ := mapM_cons_some h
    intro v hv
    rw [List.flatten_cons, List.mem_append] at hv
    rcases hv with hv | hv
    · exact hg p (by simp) b hb v hv
    · exact ih hbs (fun q hq => hg q (by simp [hq])) v hv

theorem pointOf_sup {G : RF RV} {m : MId} {K : List PId} (hg : ∀ x vs, G x = some vs → ∀ v ∈ vs, v ∈ sup m K) (x : Pt) :
    pointOf G x ∈ sup m K := by
  unfold pointOf
  split
  · next v h => exact hg _ _ h v (by simp)
  · exact zero_mem _

/-- Limits of difference quotients. -/
theorem deriv_sup {f : ℝ → RV} {w : RV} {m : MId} {K : List PId} (hf : ∀ t, f t ∈ sup m K) (h : HasDerivAt f w 0) : w ∈ sup m K := by
  refine (sup_closed m K).mem_of_tendsto (hasDerivAt_iff_tendsto_slope.1 h) (Filter.Eventually.of_forall fun u => ?_)
  rw [slope_def_module]
  exact Submodule.smul_mem _ _ (sub_mem (hf u) (hf 0))

section
variable {S : SO RV} {m : MId} {T : PId → Option (List RV)} {base : PId → Input → Option (List RV)}

theorem defVal_sup {r : PId} {g : PId → Input → Option (List RV)} {K : List PId}
    (hg : ∀ p x vs, g p x = some vs → ∀ v ∈ vs, v ∈ sup m K) {d : ProcDef} (hd : d.Elem)
    (hT : ∀ q ∈ d.refs, ∀ ws, T q = some ws → ∀ w ∈ ws, w ∈ sup m K) {x : Input} {vs : List RV}
    (h : defVal S m r T g d x = some vs) : ∀ v ∈ vs, v ∈ sup m (r :: K) := by
  have mono : sup m K ≤ sup m (r :: K) := sup_mono fun p hp => by simp [hp]
  cases d with
  | indep mean k =>
    cases x with
    | num xs =>
      cases h
      intro v hv
      obtain ⟨y, _, rfl⟩ := List.mem_map.1 hv
      exact rv_sup (by simp) _ _ y
    | fdd => cases h
    | tup => cases h
  | addFn p f =>
    obtain ⟨v, hv, h⟩ := bind_some (by rwa [defVal] at h)
    obtain ⟨u, hu, h⟩ := bind_some h
    cases h
    exact zipWith_mem fun w hw u _ => mono (add_mem (hg p x v hv w hw) (Submodule.smul_mem _ _ (rvOne_sup m K)))
  | sum p q =>
    obtain ⟨v, hv, h⟩ := bind_some (by rwa [defVal] at h)
    obtain ⟨u, hu, h⟩ := bind_some h
    obtain ⟨_, rfl⟩ := zipAdd_some h
    exact zipWith_mem fun w hw w' hw' => mono (add_mem (hg p x v hv w hw) (hg q x u hu w' hw'))
  | scale p c =>
    rw [defVal] at h
    obtain ⟨v, hv, rfl⟩ := Option.map_eq_some_iff.1 h
    intro w hw
    obtain ⟨y, hy, rfl⟩ := List.mem_map.1 hw
    exact mono (Submodule.smul_mem _ _ (hg p x v hv y hy))
  | fmul p f =>
    obtain ⟨v, hv, h⟩ := bind_some (by rwa [defVal] at h)
    obtain ⟨u, hu, h⟩ := bind_some h
    cases h
    exact zipWith_mem fun w hw u _ => mono (Submodule.smul_mem _ _ (hg p x v hv w hw))
  | pre p t =>
    obtain ⟨x', hx', h⟩ := bind_some (by rwa [defVal] at h)
    exact fun v hv => mono (hg p x' vs h v hv)
  | cross ps =>
    cases x with
    | num xs =>
      obtain ⟨vss, hv, rfl⟩ := Option.map_eq_some_iff.1 h
      exact fun v hv' => mono (mapM_mem hv (fun p _ vs h => hg p _ vs h) v hv')
    | fdd q y =>
      simp only [defVal] at h
      split at h
      · next hq => exact fun v hv => mono (hT q hq vs h v hv)
      · cases h
    | tup => cases h
  | copy p => rw [defVal] at h; exact fun v hv => mono (hg p x vs h v hv)
  | diff p d =>
    cases x with
    | num xs =>
      simp only [defVal] at h
      intro v hv
      obtain ⟨y, _, hy⟩ := mem_mapM h v hv
      exact mono (deriv_sup (fun t => pointOf_sup (hg p) _) (slopeOf_some (RF.der_some hy).2))
    | fdd => cases h
    | tup => cases h
  | rem p q =>
    cases x with
    | num xs =>
      obtain ⟨v, hv, h⟩ := bind_some (by rwa [defVal] at h)
      obtain ⟨u, hu, h⟩ := bind_some h
      split at h
      · cases h
        intro v hv
        obtain ⟨y, _, rfl⟩ := List.mem_map.1 hv
        exact rv_sup (by simp) _ _ y
      · cases h
    | fdd => cases h
    | tup => cases h
  | custom => exact hd.elim

theorem valD_sup {bp : List PId} {D : List (PId × ProcDef)} (hb : ∀ p x vs, base p x = some vs → ∀ v ∈ vs, v ∈ sup m [])
    (hT : ∀ es', es' <:+ D → ∀ q ∈ knownOf bp es', ∀ ws, T q = some ws → ∀ w ∈ ws, w ∈ sup m (es'.map (·.1))) :
    (es : List (PId × ProcDef)) → es <:+ D → (∀ e ∈ es, e.2.Elem) → Scoped bp es → ∀ p x vs,
      valD S m T base es p x = some vs → ∀ v ∈ vs, v ∈ sup m (es.map (·.1))
  | [], _, _, _, p, x, vs, h => hb p x vs h
  | (r, d) :: es, hs, he, hsc, p, x, vs, h => by
    have hs' : es <:+ D := (List.suffix_cons (r, d) es).trans hs
    have ih := valD_sup hb hT es hs' (fun e h => he e (by simp [h])) hsc.2
    simp only [valD] at h
    split at h
    · exact defVal_sup ih (he (r, d) (by simp)) (fun q hq => hT es hs' q (hsc.1 q hq)) h
    · exact fun v hv => sup_mono (fun p hp => by simp [hp]) (ih p x vs h v hv)

end

theorem not_mem_of_known {a : AMeas} (h : a.ps.Nodup) {es es' : List (PId × ProcDef)} (e : a.defs = es ++ es')
    {q : PId} (hq : q ∈ knownOf a.basePs es') : q ∉ es.map (·.1) := by
  intro hq'
  unfold AMeas.ps knownOf at h
  rw [e, List.map_append, List.reverse_append, ← List.append_assoc] at h
  refine (List.nodup_append.1 h).2.2 q ?_ q (by simpa using hq') rfl
  exact hq

section
variable {L : AWorld} (hL : L.Elem)
include hL

theorem IsMeas.scoped {m : MId} {a : AMeas} (h : IsMeas L m a) {es' : List (PId × ProcDef)} (hs : es' <:+ a.defs) : Scoped a.basePs es' := by
  have hsc : Scoped a.basePs a.defs := by
    rcases h with h | ⟨_, rfl⟩
    · exact (hL.wf m a h).inScope
    · trivial
  obtain ⟨es, he⟩ := hs
  rw [← he] at hsc
  clear he
  induction es with
  | nil => exact hsc
  | cons e es ih => exact ih hsc.2

theorem IsMeas.nodup {m : MId} {a : AMeas} (h : IsMeas L m a) : a.ps.Nodup := by
  rcases h with h | ⟨_, rfl⟩
  · exact (hL.wf m a h).nodup
  · simp [AMeas.ps, knownOf]

theorem canon_sup : ∀ m a, IsMeas L m a → ∀ x,
    (∀ es', es' <:+ a.defs → ∀ q ∈ knownOf a.basePs es', ∀ ws, (canon L).F m q x = some ws → ∀ w ∈ ws, w ∈ sup m (es'.map (·.1))) ∧
    ∀ q ws, (canon L).F m q x = some ws → ∀ w ∈ ws, w ∈ sup (m + 1) [] := by
  refine canon_ind hL fun m a ha ih x => ?_
  have hbase : ∀ p x vs, baseVal L a p x = some vs → ∀ v ∈ vs, v ∈ sup m [] := fun p x vs h v hv => by
    obtain ⟨u, hu, -, h⟩ := baseVal_some h
    obtain ⟨b, hb⟩ := isMeas_exists L u.prior
    have := (ih u hu b hb x).2 p vs h v hv
    have hlt : u.prior < m := by
      rcases ha with ha | ⟨_, rfl⟩
      · exact (hL.wf m a ha).base_lt u hu
      · cases hu
    rcases Nat.lt_or_ge (u.prior + 1) m with h' | h'
    · exact sup_lt h' this
    · have e : m = u.prior + 1 := by omega
      rw [e]; exact this
  have atom : ∀ x : Input, x.IsAtom → (∀ es', es' <:+ a.defs → ∀ q ∈ knownOf a.basePs es', ∀ ws,
        innerVals ((canon L).F m) x q = some ws → ∀ w ∈ ws, w ∈ sup m (es'.map (·.1))) →
      (∀ es', es' <:+ a.defs → ∀ q ∈ knownOf a.basePs es', ∀ ws, (canon L).F m q x = some ws → ∀ w ∈ ws, w ∈ sup m (es'.map (·.1))) ∧
      ∀ q ws, (canon L).F m q x = some ws → ∀ w ∈ ws, w ∈ sup (m + 1) [] := by
    intro x hx hT
    have key : ∀ es', es' <:+ a.defs → ∀ q ws,
        valD ((canon L).S m) m (innerVals ((canon L).F m) x) (baseVal L a) es' q x = some ws → ∀ w ∈ ws, w ∈ sup m (es'.map (·.1)) :=
      fun es' hs q ws h => valD_sup hbase hT es' hs (fun e he => ha.elem hL e (hs.subset he)) (ha.scoped hL hs) q x ws h
    refine ⟨fun es' hs q hq ws h => ?_, fun q ws h w hw => ?_⟩
    · obtain ⟨es, he⟩ := hs
      rw [canon_atom hL.wf ha hx, ← he, valD_skip (not_mem_of_known (ha.nodup hL) he.symm hq)] at h
      exact key es' ⟨es, he⟩ q ws h
    · rw [canon_atom hL.wf ha hx] at h
      exact sup_lt (Nat.lt_succ_self m) (key a.defs (List.suffix_refl _) q ws h w hw)
  induction x using Input.ind with
  | num xs => exact atom (.num xs) trivial fun _ _ _ _ _ h => by cases h
  | fdd p y ih => exact atom (.fdd p y) trivial ih.1
  | tup xs ih =>
    refine ⟨fun es' hs q hq ws h => ?_, fun q ws h => ?_⟩
    · rw [canon_tup hL.wf] at h
      obtain ⟨vss, hv, rfl⟩ := Option.map_eq_some_iff.1 h
      exact mapM_mem hv fun x hx vs h => (ih x hx).1 es' hs q hq vs h
    · rw [canon_tup hL.wf] at h
      obtain ⟨vss, hv, rfl⟩ := Option.map_eq_some_iff.1 h
      exact mapM_mem hv fun x hx vs h => (ih x hx).2 q vs h

/-! ## Expectation and covariance -/

/-- New variables are as they were defined, in every measure up to the one they were defined in. -/
theorem canon_fresh (m : MId) (r : PId) (e : Pt → ℝ) (c : Pt → Pt → ℝ) (y : Pt) (k : MId) (hk : k ≤ m) :
    ((canon L).S k).E (rv m r e c y) = so0.E (rv m r e c y) ∧
      ∀ v, ((canon L).S k).C (rv m r e c y) v = so0.C (rv m r e c y) v := by
  induction k using Nat.strong_induction_on with
  | _ k ih =>
    cases ha : L.ms[k]? with
    | none => rw [canon_S_none (by rw [ha]; rfl)]; exact ⟨rfl, fun _ => rfl⟩
    | some a =>
      cases hu : a.base with
      | none => rw [canon_S_none (by rw [ha]; exact hu)]; exact ⟨rfl, fun _ => rfl⟩
      | some u =>
        rw [canon_S_some hL.wf ha hu]
        have hlt := (hL.wf k a ha).base_lt u hu
        have ih := ih u.prior hlt (hlt.le.trans hk)
        have := SO.given_of (S := (canon L).S u.prior) (F := (canon L).F u.prior) (obs := u.obs) (rv m r e c y)
          (fun p x zs hz z hz' => by
            rw [((canon L).S u.prior).symm, ih.2]
            refine so0_orth (K := []) (by simp) ?_ _ _ y
            obtain ⟨b, hb⟩ := isMeas_exists L u.prior
            have h := (canon_sup hL u.prior b hb x).2 p zs hz z hz'
            rcases Nat.lt_or_ge (u.prior + 1) m with h' | h'
            · exact sup_lt h' h
            · have : m = u.prior + 1 := by omega
              rw [this]; exact h)
        exact ⟨this.1.trans ih.1, fun v => (this.2 v).trans (ih.2 v)⟩

theorem canon_one (k : MId) : ((canon L).S k).E rvOne = 1 ∧ ∀ v, ((canon L).S k).C rvOne v = 0 := by
  induction k using Nat.strong_induction_on with
  | _ k ih =>
    cases ha : L.ms[k]? with
    | none => rw [canon_S_none (by rw [ha]; rfl)]; exact so0_one
    | some a =>
      cases hu : a.base with
      | none => rw [canon_S_none (by rw [ha]; exact hu)]; exact so0_one
      | some u =>
        rw [canon_S_some hL.wf ha hu]
        have ih := ih u.prior ((hL.wf k a ha).base_lt u hu)
        have := SO.given_of (S := (canon L).S u.prior) (F := (canon L).F u.prior) (obs := u.obs) rvOne
          (fun p x zs hz z hz' => by rw [((canon L).S u.prior).symm, ih.2])
        exact ⟨this.1.trans ih.1, fun v => (this.2 v).trans (ih.2 v)⟩

end

/-! ## Continuity -/

/-- Expectation and covariance are continuous. -/
structure SO.Cont (S : SO RV) : Prop where
  E : Continuous S.E
  C : ∀ v, Continuous fun u => S.C u v

theorem so0_cont : so0.Cont where
  E := continuous_fst
  C v := by
    show Continuous fun u : RV => (inner ℝ u.2 v.2 : ℝ)
    fun_prop

theorem SO.Cont.right {S : SO RV} (h : S.Cont) (v : RV) : Continuous fun u => S.C v u := by
  have : (fun u => S.C v u) = fun u => S.C u v := funext fun u => S.symm v u
  rw [this]
  exact h.C v

theorem SO.Cont.upd {S : SO RV} (h : S.Cont) (zs : List RV) (W : Matrix (Fin zs.length) (Fin zs.length) ℝ) (hW : W.IsSymm)
    (w : Fin zs.length → ℝ) : (S.upd zs W hW w).Cont where
  E := by
    have : ⇑(S.upd zs W hW w).E = fun u => S.E u + ∑ a, S.C (zs.get a) u * w a := funext fun u => SO.upd_E u
    rw [this]
    exact h.E.add (continuous_finsetSum _ fun a _ => (h.right _).mul continuous_const)
  C v := by
    have : (fun u => (S.upd zs W hW w).C u v) = fun u => S.C u v - quadSum S zs W u v := funext fun u => SO.upd_C u v
    rw [this]
    refine (h.C v).sub ?_
    unfold quadSum
    exact continuous_finsetSum _ fun a _ => continuous_finsetSum _ fun b _ => ((h.right _).mul continuous_const).mul continuous_const

theorem SO.Cont.given {S : SO RV} (h : S.Cont) (F : PId → RF RV) (obs : Obs) : (S.given F obs).Cont := by
  have ho : ∀ zs noise y, (S.observe zs noise y).Cont := fun zs noise y => by
    unfold SO.observe
    split
    · exact h.upd _ _ _ _
    · exact h
  have hs : ∀ zs xs o, (S.observeSparse zs xs o).Cont := fun zs xs o => by
    unfold SO.observeSparse
    split
    · exact h.upd _ _ _ _
    · exact h
  cases obs with
  | exact p x noise y =>
    rw [SO.given_exact]
    split
    · exact h
    · split
      · exact ho _ _ _
      · exact h
  | pseudo pu p o =>
    rw [SO.given_pseudo']
    split
    · exact hs _ _ _
    · exact h

section
variable {L : AWorld} (wf : WfMs L)
include wf

theorem canon_cont (k : MId) : ((canon L).S k).Cont := by
  induction k using Nat.strong_induction_on with
  | _ k ih =>
    cases ha : L.ms[k]? with
    | none => rw [canon_S_none (by rw [ha]; rfl)]; exact so0_cont
    | some a =>
      cases hu : a.base with
      | none => rw [canon_S_none (by rw [ha]; exact hu)]; exact so0_cont
      | some u =>
        rw [canon_S_some wf ha hu]
        exact (ih u.prior ((wf k a ha).base_lt u hu)).given _ _

/-! ## Positivity -/

omit wf in
theorem so0_pos : so0.Pos := fun v => by rw [so0_C]; exact real_inner_self_nonneg

/-- The noise of an observation of values `F` has a positive semi-definite covariance. -/
def Obs.PosNoise {V : Type} (F : PId → RF V) : Obs → Prop
  | .exact p x noise _ => ∀ zs, F p x = some zs → (noise.sq zs.length).PosSemidef
  | .pseudo pu p o => ∀ zs xs, F pu o.z = some zs → F p o.x = some xs →
    (o.noiseZ.sq zs.length).PosSemidef ∧ ∀ j < xs.length, 0 ≤ o.noiseX.mat.e j j

/-- Observations are made with noise of positive semi-definite covariance. -/
def AWorld.PosNoise (L : AWorld) : Prop :=
  ∀ (m : MId) a u, L.ms[m]? = some a → a.base = some u → u.obs.PosNoise ((canon L).F u.prior)

theorem canon_pos (hs : L.Sized) (hn : L.PosNoise) (k : MId) : ((canon L).S k).Pos := by
  induction k using Nat.strong_induction_on with
  | _ k ih =>
    cases ha : L.ms[k]? with
    | none => rw [canon_S_none (by rw [ha]; rfl)]; exact so0_pos
    | some a =>
      cases hu : a.base with
      | none => rw [canon_S_none (by rw [ha]; exact hu)]; exact so0_pos
      | some u =>
        rw [canon_S_some wf ha hu]
        have ih := ih u.prior ((wf k a ha).base_lt u hu)
        have h1 := hs k a u ha hu
        have h2 := hn k a u ha hu
        cases ho : u.obs with
        | exact p x noise y =>
          rw [ho] at h1 h2
          rw [SO.given_exact]
          split
          · exact ih
          · next hx =>
            obtain ⟨zs, hz, hr, hc⟩ := h1.resolve_left hx
            simp only [hz]
            exact SO.observe_pos ih hr hc (h2 zs hz)
        | pseudo pu p o =>
          rw [ho] at h1 h2
          obtain ⟨zs, xs, hz, hx, a1, a2, a3, a4⟩ := h1
          rw [SO.given_pseudo hz hx]
          exact SO.observeSparse_pos ih a1 a2 a3 a4 (h2 zs xs hz hx).1 (h2 zs xs hz hx).2

end

/-- The covariance of the remainder of a product is positive semi-definite. -/
theorem remC_psd {S : SO RV} (hS : S.Pos) (f h : Pt → RV) : IsPSD (remC S f h) where
  symm x y := by
    unfold remC
    rw [S.symm (f x) (f y), S.symm (h x) (h y), S.symm (f x) (h y), S.symm (h x) (f y)]
    ring
  nonneg s a := by
    let w : s ⊕ s → RV := Sum.elim (fun x => f x) (fun x => h x)
    have hG : ∀ w : s ⊕ s → RV, (Matrix.of fun i j => S.C (w i) (w j)).PosSemidef := fun w => by
      refine PosSemidef.of_dotProduct_mulVec_nonneg ?_ fun v => ?_
      · ext i j
        simp [S.symm (w i) (w j)]
      · have e : star v ⬝ᵥ ((Matrix.of fun i j => S.C (w i) (w j)) *ᵥ v) = S.C (∑ i, v i • w i) (∑ i, v i • w i) := by
          simp only [map_sum, LinearMap.sum_apply, map_smul, LinearMap.smul_apply, smul_eq_mul, dotProduct, mulVec, Matrix.of_apply,
            star_trivial, Finset.mul_sum]
          refine Finset.sum_comm.trans (Finset.sum_congr rfl fun i _ => Finset.sum_congr rfl fun j _ => ?_)
          ring
        rw [e]
        exact hS _
    have := ((hG w).hadamard (hG (w ∘ Sum.swap))).dotProduct_mulVec_nonneg (Sum.elim (fun x => a x) (fun x => a x))
    have e : star (Sum.elim (fun x : s => a x) (fun x : s => a x)) ⬝ᵥ (((Matrix.of fun i j => S.C (w i) (w j)) ⊙
        (Matrix.of fun i j => S.C ((w ∘ Sum.swap) i) ((w ∘ Sum.swap) j))) *ᵥ (Sum.elim (fun x : s => a x) (fun x : s => a x))) =
        2 * ∑ x ∈ s, ∑ y ∈ s, a x * a y * remC S f h x y := by
      simp only [dotProduct, mulVec, Fintype.sum_sum_type, Matrix.hadamard_apply, Matrix.of_apply, w, Function.comp, Sum.elim_inl, Sum.elim_inr,
        Sum.swap_inl, Sum.swap_inr, Pi.star_apply, star_trivial]
      rw [← Finset.sum_add_distrib, Finset.mul_sum, ← Finset.sum_coe_sort s]
      refine Finset.sum_congr rfl fun x _ => ?_
      rw [Finset.mul_sum, ← Finset.sum_coe_sort s]
      simp only [mul_add, Finset.mul_sum]
      rw [← Finset.sum_add_distrib, ← Finset.sum_add_distrib, ← Finset.sum_add_distrib]
      refine Finset.sum_congr rfl fun y _ => ?_
      unfold remC
      ring
    rw [e] at this
    linarith
/-! ## The laws -/

section
variable {L : AWorld} (hL : L.Elem)
include hL

/-- Values at inputs that are not tuples, in terms of earlier definitions. -/
theorem canon_def {m : MId} {a : AMeas} (ha : L.ms[m]? = some a) {es es' : List (PId × ProcDef)} {r : PId}
    {d : ProcDef} (e : a.defs = es ++ (r, d) :: es') {x : Input} (hx : x.IsAtom) :
    (canon L).F m r x = defVal ((canon L).S m) m r (innerVals ((canon L).F m) x)
      (valD ((canon L).S m) m (innerVals ((canon L).F m) x) (baseVal L a) es') d x ∧
    ∀ p ∈ knownOf a.basePs es', (canon L).F m p x = valD ((canon L).S m) m (innerVals ((canon L).F m) x) (baseVal L a) es' p x := by
  have wf := hL.wf m a ha
  refine ⟨?_, fun p hp => ?_⟩
  · rw [canon_atom hL.wf (.inl ha) hx, e,
      valD_skip (not_mem_of_known wf.nodup e (by rw [knownOf_cons]; simp)), valD_self]
  · have e' : a.defs = (es ++ [(r, d)]) ++ es' := by rw [e]; simp
    rw [canon_atom hL.wf (.inl ha) hx, e', valD_skip (not_mem_of_known wf.nodup e' hp)]

/-- Values of a process that is known at row inputs. -/
theorem canon_point {m : MId} {a : AMeas} (ha : L.ms[m]? = some a) {es es' : List (PId × ProcDef)} {r : PId}
    {d : ProcDef} (e : a.defs = es ++ (r, d) :: es') {p : PId} (hp : p ∈ knownOf a.basePs es') (T : PId → Option (List RV)) (hT : ∀ q, T q = none) :
    pointOf (valD ((canon L).S m) m T (baseVal L a) es' p) = pointOf ((canon L).F m p) := by
  funext x
  unfold pointOf
  rw [(canon_def hL ha e (x := .num [x]) trivial).2 p hp]
  have : T = innerVals ((canon L).F m) (.num [x]) := funext fun q => hT q
  rw [this]

theorem canon_along {m : MId} {a : AMeas} (ha : L.ms[m]? = some a) {es es' : List (PId × ProcDef)} {r : PId}
    {d : ProcDef} (e : a.defs = es ++ (r, d) :: es') {p : PId} (hp : p ∈ knownOf a.basePs es') (T : PId → Option (List RV)) (hT : ∀ q, T q = none) :
    RF.Along (valD ((canon L).S m) m T (baseVal L a) es' p) = ((canon L).F m p).Along := by
  funext d x
  refine propext (and_congr_right fun _ => forall_congr' fun t => ?_)
  rw [(canon_def hL ha e (x := .num [bump d t x]) trivial).2 p hp]
  have : T = innerVals ((canon L).F m) (.num [bump d t x]) := funext fun q => hT q
  rw [this]

/-- Values that are new variables at rows. -/
theorem canon_rows {m : MId} {r : PId} {f : Pt → RV} (h1 : ∀ xs vs, (canon L).F m r (.num xs) = some vs → vs = xs.map f)
    (h2 : ∀ q y, (canon L).F m r (.fdd q y) = none) :
    ∀ x vs, (canon L).F m r x = some vs → ∃ ys : List Pt, vs = ys.map f ∧ ys.length = numElements x := by
  intro x
  induction x using Input.ind with
  | num xs => intro vs h; exact ⟨xs, h1 xs vs h, rfl⟩
  | fdd q y => intro vs h; rw [h2] at h; cases h
  | tup xs ih =>
    intro vs h
    rw [canon_tup hL.wf] at h
    obtain ⟨vss, hv, rfl⟩ := Option.map_eq_some_iff.1 h
    clear h
    show ∃ ys, _ ∧ List.length ys = numElementsL xs
    induction xs generalizing vss with
    | nil => rw [List.mapM_nil] at hv; cases hv; exact ⟨[], rfl, rfl⟩
    | cons x xs ih' =>
      obtain ⟨b, bs, hb, hbs, rfl⟩ := mapM_cons_some hv
      obtain ⟨y1, rfl, l1⟩ := ih x (by simp) b hb
      obtain ⟨y2, e2, l2⟩ := ih' (fun y hy => ih y (by simp [hy])) bs hbs
      refine ⟨y1 ++ y2, by rw [List.flatten_cons, e2, List.map_append], ?_⟩
      rw [List.length_append, l1, l2]; rfl

/-- The values of a new GP. -/
theorem canon_indep {m : MId} {a : AMeas} (ha : L.ms[m]? = some a) {es es' : List (PId × ProcDef)} {r : PId}
    {mean : MExpr} {k : KExpr} (e : a.defs = es ++ (r, .indep mean k) :: es') :
    (∀ xs, (canon L).F m r (.num xs) = some (xs.map (rv m r mean.val k.val))) ∧
    (∀ q y, (canon L).F m r (.fdd q y) = none) ∧
    ∀ x vs, (canon L).F m r x = some vs → ∃ ys : List Pt, vs = ys.map (rv m r mean.val k.val) ∧ ys.length = numElements x := by
  have h1 : ∀ xs, (canon L).F m r (.num xs) = some (xs.map (rv m r mean.val k.val)) := fun xs => (canon_def hL ha e (x := .num xs) trivial).1
  have h2 : ∀ q y, (canon L).F m r (.fdd q y) = none := fun q y => (canon_def hL ha e (x := .fdd q y) trivial).1
  exact ⟨h1, h2, canon_rows hL (fun xs vs h => by rw [h1] at h; exact (Option.some.inj h).symm) h2⟩

/-- The values of the remainder of a product. -/
theorem canon_rem {m : MId} {a : AMeas} (ha : L.ms[m]? = some a) {es es' : List (PId × ProcDef)} {r p q : PId}
    (e : a.defs = es ++ (r, .rem p q) :: es') (hp : p ∈ knownOf a.basePs es') (hq : q ∈ knownOf a.basePs es') :
    (∀ xs rs, (canon L).F m r (.num xs) = some rs → (canon L).F m p (.num xs) = some (xs.map (pointOf ((canon L).F m p))) ∧
      (canon L).F m q (.num xs) = some (xs.map (pointOf ((canon L).F m q))) ∧
      rs = xs.map (rv m r (remE ((canon L).S m) (pointOf ((canon L).F m p)) (pointOf ((canon L).F m q)))
        (remC ((canon L).S m) (pointOf ((canon L).F m p)) (pointOf ((canon L).F m q))))) ∧
    ∀ q' y, (canon L).F m r (.fdd q' y) = none := by
  refine ⟨fun xs rs h => ?_, fun q' y => (canon_def hL ha e (x := .fdd q' y) trivial).1⟩
  obtain ⟨h1, h2⟩ := canon_def hL ha e (x := .num xs) trivial
  rw [h1] at h
  simp only [defVal] at h
  rw [canon_point hL ha e hp (innerVals ((canon L).F m) (.num xs)) (fun _ => rfl), canon_point hL ha e hq (innerVals ((canon L).F m) (.num xs)) (fun _ => rfl), ← h2 p hp, ← h2 q hq] at h
  obtain ⟨vs, hv, h⟩ := bind_some h
  obtain ⟨ws, hw, h⟩ := bind_some h
  have hr := canon_rowWise hL m a (.inl ha)
  split at h
  · next hl =>
    cases h
    refine ⟨?_, ?_, rfl⟩
    · rw [hv, ← hr.point hv hl.1]
    · rw [hw, ← hr.point hw hl.2]
  · cases h

theorem canon_defLaw (hpos : ∀ m, ((canon L).S m).Pos) (lm : MId → PId → Option MExpr) (lk : MId → PId → PId → Option KExpr) {m : MId} {a : AMeas}
    (ha : L.ms[m]? = some a) {es es' : List (PId × ProcDef)} {r : PId}
    {d : ProcDef} (e : a.defs = es ++ (r, d) :: es') : (canon L).DefLaw lm lk m (knownOf a.basePs es') r d := by
  have wf := hL.wf m a ha
  have hd : d.Elem := hL.defs m a ha (r, d) (by rw [e]; simp)
  have hsc : ∀ q ∈ d.refs, q ∈ knownOf a.basePs es' := by
    have := wf.inScope
    rw [e] at this
    clear e
    induction es with
    | nil => exact this.1
    | cons e es ih => exact ih this.2
  have fn : ∀ f : Fn, f.Plain → ∀ g x n, (canon L).fnAt f x n = f.vals ((canon L).S m) g x n := by
    intro f hf g x n
    cases f with
    | user f => cases x <;> rfl
    | const c => rfl
    | meanOf => exact hf.elim
  cases d with
  | indep mean k =>
    obtain ⟨h1, h2, h3⟩ := canon_indep hL ha e
    have hE : ∀ y, ((canon L).S m).E (rv m r mean.val k.val y) = mean.val y := by
      intro y
      rw [(canon_fresh hL m r _ _ y m le_rfl).1, so0_rv_E]
    have hC : ∀ y y', ((canon L).S m).C (rv m r mean.val k.val y) (rv m r mean.val k.val y') = k.val y y' := by
      intro y y'
      rw [(canon_fresh hL m r _ _ y m le_rfl).2, so0_rv_C m r _ hd.2.2]
    refine ⟨fun n x u t hu ht => ?_, fun n => ⟨fun hz x y Tm hx hy hT => ?_, fun x y A Tm hx hy hA hT => ?_,
      fun x y u Tm hx hy hA hT => ?_⟩, fun q hq => ?_⟩
    · obtain ⟨vs, hvs, rfl⟩ := expect_some ht
      obtain ⟨ys, rfl, hl⟩ := h3 x vs hvs
      have et : (ys.map (rv m r mean.val k.val)).map ((canon L).S m).E = ys.map mean.val := by
        rw [List.map_map]
        exact List.map_congr_left fun y _ => hE y
      rw [et]
      by_cases hx : ∃ xs, x = .num xs
      · obtain ⟨xs, rfl⟩ := hx
        rw [h1] at hvs
        have := plainM_num hd.1 hu
        have hinj : xs.map mean.val = ys.map mean.val := by
          rw [← et, ← Option.some.inj hvs, List.map_map]
          exact (List.map_congr_left fun y _ => (hE y).symm)
        rw [this, hinj]
        exact ⟨le_rfl, fun _ => rfl⟩
      · obtain ⟨c, hc, rfl⟩ := plainM_other hd.1 (fun xs h => hx ⟨xs, h⟩) hu
        rw [hc, List.map_const', hl]
        exact ⟨le_rfl, fun _ => rfl⟩
    · subst hz
      obtain ⟨vs, ws, hv, hw, rfl⟩ := cov_some _ hT
      obtain ⟨ys, rfl, _⟩ := h3 x vs hv
      obtain ⟨zs, rfl, _⟩ := h3 y ws hw
      intro i hi j hj
      have hi : i < (ys.map (rv m r mean.val KExpr.zero.val)).length := hi
      have hj : j < (zs.map (rv m r mean.val KExpr.zero.val)).length := hj
      rw [List.length_map] at hi hj
      show ((canon L).S m).C ((ys.map (rv m r mean.val KExpr.zero.val)).getD i 0) ((zs.map (rv m r mean.val KExpr.zero.val)).getD j 0) = 0
      rw [List.getD_eq_getElem?_getD, List.getD_eq_getElem?_getD, List.getElem?_map, List.getElem?_map,
        List.getElem?_eq_getElem hi, List.getElem?_eq_getElem hj]
      exact hC _ _
    · cases x with
      | tup => exact hx.elim
      | fdd q x => obtain ⟨vs, ws, hv, hw, rfl⟩ := cov_some _ hT; rw [h2] at hv; cases hv
      | num xs =>
        cases y with
        | tup => exact hy.elim
        | fdd q x => obtain ⟨vs, ws, hv, hw, rfl⟩ := cov_some _ hT; rw [h2] at hw; cases hw
        | num ys =>
          obtain ⟨vs, ws, hv, hw, rfl⟩ := cov_some _ hT
          rw [h1] at hv hw
          cases hv; cases hw
          have ee := plainK_num hd.2.1 hA
          refine ⟨by rw [ee.r]; simp [KExpr.valMat, covMat], by rw [ee.c]; simp [KExpr.valMat, covMat],
            fun _ _ i hi j hj => ?_⟩
          have hi : i < (xs.map (rv m r mean.val k.val)).length := hi
          have hj : j < (ys.map (rv m r mean.val k.val)).length := hj
          rw [List.length_map] at hi hj
          rw [ee.e i hi j hj]
          show k.val (xs.getD i []) (ys.getD j []) =
            ((canon L).S m).C ((xs.map (rv m r mean.val k.val)).getD i 0) ((ys.map (rv m r mean.val k.val)).getD j 0)
          simp only [List.getD_eq_getElem?_getD, List.getElem?_map,
            List.getElem?_eq_getElem hi, List.getElem?_eq_getElem hj, Option.map_some, Option.getD_some]
          exact (hC _ _).symm
    · cases x with
      | tup => exact hx.elim
      | fdd q x => obtain ⟨vs, ws, hv, hw, rfl⟩ := cov_some _ hT; rw [h2] at hv; cases hv
      | num xs =>
        cases y with
        | tup => exact hy.elim
        | fdd q x => obtain ⟨vs, ws, hv, hw, rfl⟩ := cov_some _ hT; rw [h2] at hw; cases hw
        | num ys =>
          obtain ⟨vs, ws, hv, hw, rfl⟩ := cov_some _ hT
          rw [h1] at hv hw
          cases hv; cases hw
          obtain ⟨hl, rfl⟩ := plainD_num hd.2.1 hA
          refine ⟨by simp [covMat], by simp [covMat], fun _ _ i hi => ?_⟩
          have hi : i < (xs.map (rv m r mean.val k.val)).length := hi
          rw [List.length_map] at hi
          have hj : i < ys.length := hl ▸ hi
          rw [List.getElem?_zipWith, List.getElem?_eq_getElem hi, List.getElem?_eq_getElem hj]
          show some _ = some (((canon L).S m).C ((xs.map (rv m r mean.val k.val)).getD i 0) ((ys.map (rv m r mean.val k.val)).getD i 0))
          simp only [List.getD_eq_getElem?_getD, List.getElem?_map,
            List.getElem?_eq_getElem hi, List.getElem?_eq_getElem hj, Option.map_some, Option.getD_some]
          rw [hC]
    · intro x y vs ws hv hw v hv' w hw'
      obtain ⟨ys, rfl, _⟩ := h3 x vs hv
      obtain ⟨y', _, rfl⟩ := List.mem_map.1 hv'
      rw [(canon_fresh hL m r _ _ y' m le_rfl).2]
      refine so0_orth (K := es'.map (·.1)) ?_ ?_ _ _ y'
      · have hnd := wf.nodup
        intro hr
        have e' : a.defs = (es ++ [(r, .indep mean k)]) ++ es' := by rw [e]; simp
        exact not_mem_of_known hnd e' (mem_knownOf.2 (.inr hr)) (by simp)
      · exact (canon_sup hL m a (.inl ha) y).1 es' ⟨es ++ [(r, .indep mean k)], by rw [e]; simp⟩ q hq ws hw w hw'
  | addFn p f =>
    intro x hx
    obtain ⟨h1, h2⟩ := canon_def hL ha e hx
    rw [h1, h2 p (hsc p (by simp [ProcDef.refs])), defVal]
    simp only [fn f hd (valD ((canon L).S m) m (innerVals ((canon L).F m) x) (baseVal L a) es')]
    rfl
  | sum p q =>
    intro x hx
    obtain ⟨h1, h2⟩ := canon_def hL ha e hx
    rw [h1, h2 p (hsc p (by simp [ProcDef.refs])), h2 q (hsc q (by simp [ProcDef.refs])), defVal]
  | scale p c =>
    intro x hx
    obtain ⟨h1, h2⟩ := canon_def hL ha e hx
    rw [h1, h2 p (hsc p (by simp [ProcDef.refs])), defVal]
  | fmul p f =>
    intro x hx
    obtain ⟨h1, h2⟩ := canon_def hL ha e hx
    rw [h1, h2 p (hsc p (by simp [ProcDef.refs])), defVal]
    have fe : ∀ n, (canon L).fnAt f x n = f.vals ((canon L).S m) (valD ((canon L).S m) m (innerVals ((canon L).F m) x) (baseVal L a) es') x n := by
      intro n
      cases f with
      | user f => exact fn (.user f) trivial _ x n
      | const c => exact fn (.const c) trivial _ x n
      | meanOf n' q =>
        obtain ⟨rfl, hq⟩ := hL.means m a es r p n' q es' ha e
        show (do
          let t ← expect ((canon L).S n') ((canon L).F n' q) x
          if t.length = n then some t else none) = _
        unfold expect
        rw [h2 q hq]
        rfl
    simp only [fe]
  | pre p t =>
    intro x hx
    obtain ⟨h1, _⟩ := canon_def hL ha e hx
    rw [h1, defVal]
    cases hx' : t.apply x with
    | none => rfl
    | some x' =>
      have hx'a := InTr.apply_atom hx'
      have hinner : innerVals ((canon L).F m) x = innerVals ((canon L).F m) x' := by
        cases t <;> cases x <;> simp only [InTr.apply, Option.map_eq_some_iff, Option.some.injEq, reduceCtorEq] at hx'
        case toFdd.num => exact (hd _ rfl).elim
        case toFdd.fdd => exact (hd _ rfl).elim
        all_goals first
          | (subst hx'; rfl)
          | (obtain ⟨_, _, rfl⟩ := hx'; rfl)
      obtain ⟨_, h2⟩ := canon_def hL ha e hx'a
      show _ = (canon L).F m p x'
      rw [h2 p (hsc p (by simp [ProcDef.refs])), hinner]
      rfl
  | cross ps =>
    refine ⟨fun xs => ?_, fun q x => ?_⟩
    · obtain ⟨h1, h2⟩ := canon_def hL ha e (x := .num xs) trivial
      rw [h1]
      show Option.map _ _ = _
      congr 1
      exact mapM_congr fun p hp => (h2 p (hsc p hp)).symm
    · obtain ⟨h1, _⟩ := canon_def hL ha e (x := .fdd q x) trivial
      rw [h1]; rfl
  | copy p =>
    have key : ∀ x, (canon L).F m r x = (canon L).F m p x := by
      intro x
      induction x using Input.atomInd with
      | atom x hx =>
        obtain ⟨h1, h2⟩ := canon_def hL ha e hx
        rw [h1, h2 p (hsc p (by simp [ProcDef.refs])), defVal]
      | tup xs ih =>
        rw [canon_tup hL.wf, canon_tup hL.wf]
        congr 1
        exact mapM_congr fun x hx => ih x hx
    exact funext key
  | diff p d =>
    have hp := hsc p (by simp [ProcDef.refs])
    refine ⟨fun xs => ?_, fun q x => (canon_def hL ha e (x := .fdd q x) trivial).1, fun x w hx => ?_⟩
    · obtain ⟨h1, h2⟩ := canon_def hL ha e (x := .num xs) trivial
      rw [h1]
      simp only [defVal]
      unfold Interp.der RF.der
      rw [canon_point hL ha e hp (innerVals ((canon L).F m) (.num xs)) (fun _ => rfl),
        canon_along hL ha e hp (innerVals ((canon L).F m) (.num xs)) (fun _ => rfl)]
      rfl
    · have hdf := slopeOf_some (RF.der_some hx).2
      have hc := canon_cont hL.wf m
      refine ⟨?_, fun v => ?_⟩
      · exact (ContinuousLinearMap.mk ((canon L).S m).E hc.E).hasFDerivAt.comp_hasDerivAt (0 : ℝ) hdf
      · exact (ContinuousLinearMap.mk (((canon L).S m).C.flip v) (hc.C v)).hasFDerivAt.comp_hasDerivAt (0 : ℝ) hdf
  | rem p q =>
    have hp := hsc p (by simp [ProcDef.refs])
    have hq := hsc q (by simp [ProcDef.refs])
    obtain ⟨h1, h2⟩ := canon_rem hL ha e hp hq
    have hpsd := remC_psd (hpos m) (pointOf ((canon L).F m p)) (pointOf ((canon L).F m q))
    have row : ∀ x rs, x.IsAtom → (canon L).F m r x = some rs → ∃ xs, x = .num xs ∧ (canon L).F m p x = some (xs.map (pointOf ((canon L).F m p))) ∧
        (canon L).F m q x = some (xs.map (pointOf ((canon L).F m q))) ∧
        rs = xs.map (rv m r (remE ((canon L).S m) (pointOf ((canon L).F m p)) (pointOf ((canon L).F m q)))
          (remC ((canon L).S m) (pointOf ((canon L).F m p)) (pointOf ((canon L).F m q)))) := by
      intro x rs hx h
      cases x with
      | num xs => exact ⟨xs, rfl, h1 xs rs h⟩
      | fdd q' y => rw [h2] at h; cases h
      | tup => exact hx.elim
    have gd : ∀ (xs : List Pt) (f : Pt → RV) (i : ℕ) (hi : i < xs.length), (xs.map f).getD i 0 = f xs[i] := by
      intro xs f i hi
      rw [List.getD_eq_getElem?_getD, List.getElem?_map, List.getElem?_eq_getElem hi]
      rfl
    refine ⟨fun x rs hx h => ?_, fun x y rs rs' vs vs' ws ws' hx hy hr hr' hv hv' hw hw' i hi j hj => ?_, fun q' hq' => ?_⟩
    · obtain ⟨xs, rfl, e1, e2, rfl⟩ := row x rs hx h
      refine ⟨_, _, e1, e2, by simp, by simp, fun i hi => ?_⟩
      rw [List.length_map] at hi
      rw [gd _ _ i hi, gd _ _ i hi, gd _ _ i hi, (canon_fresh hL m r _ _ _ m le_rfl).1, so0_rv_E]
      rfl
    · obtain ⟨xs, rfl, e1, e2, rfl⟩ := row x rs hx hr
      obtain ⟨ys, rfl, e1', e2', rfl⟩ := row y rs' hy hr'
      rw [e1] at hv; rw [e2] at hw; rw [e1'] at hv'; rw [e2'] at hw'
      cases hv; cases hw; cases hv'; cases hw'
      rw [List.length_map] at hi hj
      rw [gd _ _ i hi, gd _ _ i hi, gd _ _ i hi, gd _ _ j hj, gd _ _ j hj, gd _ _ j hj, (canon_fresh hL m r _ _ _ m le_rfl).2,
        so0_rv_C m r _ hpsd]
      rfl
    · intro x y vs ws hv hw v hv' w hw'
      obtain ⟨ys, rfl, _⟩ := canon_rows hL (fun xs vs h => (h1 xs vs h).2.2) h2 x vs hv
      obtain ⟨y', _, rfl⟩ := List.mem_map.1 hv'
      rw [(canon_fresh hL m r _ _ y' m le_rfl).2]
      refine so0_orth (K := es'.map (·.1)) ?_ ?_ _ _ y'
      · have hnd := wf.nodup
        intro hr
        have e' : a.defs = (es ++ [(r, .rem p q)]) ++ es' := by rw [e]; simp
        exact not_mem_of_known hnd e' (mem_knownOf.2 (.inr hr)) (by simp)
      · exact (canon_sup hL m a (.inl ha) y).1 es' ⟨es ++ [(r, .rem p q)], by rw [e]; simp⟩ q' hq' ws hw w hw'
  | custom => exact hd.elim

/-- The canonical interpretation satisfies the laws. -/
theorem canon_laws (hs : L.Sized) (hpos : ∀ m, ((canon L).S m).Pos): (canon L).Laws L where
  ok := canon_ok hL
  one_E m := (canon_one hL m).1
  one_C m v := (canon_one hL m).2 v
  defs m a es r d es' ha e := canon_defLaw hL hpos _ _ ha e
  post m a u ha hb := by
    have wf := hL.wf m a ha
    refine ⟨fun p hp => funext fun x => ?_, ?_⟩
    · induction x using Input.atomInd with
      | atom x hx =>
        have hk : p ∈ knownOf a.basePs [] := by simpa [knownOf] using hp
        have := valD_skip (S := (canon L).S m) (m := m) (T := innerVals ((canon L).F m) x) (base := baseVal L a) (es' := [])
          (not_mem_of_known wf.nodup (List.append_nil a.defs).symm hk) x
        rw [List.append_nil] at this
        rw [canon_atom hL.wf (.inl ha) hx, this]
        show baseVal L a p x = _
        unfold baseVal
        rw [hb]
        simp only
        rw [if_pos hp]
      | tup xs ih =>
        rw [canon_tup hL.wf, canon_tup hL.wf]
        congr 1
        exact mapM_congr fun x hx => ih x hx
    · rw [canon_S_some hL.wf ha hb]
      exact given_law rfl (hs m a u ha hb)

end

end Stheno
