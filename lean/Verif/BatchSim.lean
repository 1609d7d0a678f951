import Verif.BatchWorld
import Verif.BatchAt
import Verif.Api

/-!
# Programs with batches at an index

The program and the state at an index of the batch, and the relation between running a program with batches and running it at an index.
-/

namespace Stheno

open Ten

namespace Bat

/-- The observations at the index `d` of the batch. -/
def BObs.at' (d : List ℕ) : BObs → Obs
  | .exact p x noise y => .exact p (x.at' d) (noise.toMat d) (y.uprank.colList y.nrows d)
  | .pseudo pu p o => .pseudo pu p (o.at' d)

/-- The left rule at the index `d` of the batch. -/
def BLRule.at' (d : List ℕ) : BLRule → LRule
  | .zero => .zero
  | .const k => .const (k.at' d)
  | .fn f => .fn fun j => (f j).at' d
  | .look p => .look p
  | .lookR p => .lookR p
  | .add a b => .add (a.at' d) (b.at' d)
  | .scale c a => .scale c (a.at' d)
  | .tmul f g a => .tmul f g (a.at' d)
  | .pre t u a => .pre t u (a.at' d)
  | .cross m ps => .cross m ps

/-- The universal rule at the index `d` of the batch. -/
def BURule.at' (d : List ℕ) (u : BURule) : URule := ⟨u.prior, u.obs.at' d⟩

/-- The measure at the index `d` of the batch. -/
def BMState.at' (d : List ℕ) (s : BMState) : MState where
  ps := s.ps
  pids := s.pids
  means := ⟨s.means.store.map fun e => (e.1, e.2.at' d), s.means.rules.map fun r => (r.1, r.2.at' d)⟩
  kernels := ⟨s.kernels.store.map fun e => (e.1, e.2.at' d), s.kernels.rules.map fun r => (r.1, r.2.at' d),
    s.kernels.leftRules.map fun r => (r.1, r.2.1, r.2.2.at' d), s.kernels.rightRules⟩
  gpsByName := s.gpsByName
  namesByGp := s.namesByGp
  prevDefault := s.prevDefault

/-- The heap at the index `d` of the batch. -/
def BWorld.at' (d : List ℕ) (w : BWorld) : World := ⟨w.ms.map (·.at' d), w.gps, w.default⟩

/-- The operation at the index `d` of the batch. -/
def BOp.at' (d : List ℕ) : BOp → Op
  | .newMeasure => .newMeasure
  | .newGP => .newGP
  | .gp mean kernel measure nm => .gp (mean.at' d) (kernel.at' d) measure nm
  | .addFn p f => .addFn p f
  | .add p q ord => .add p q ord
  | .scale p c => .scale p c
  | .fmul p f => .fmul p f
  | .mul p q ord => .mul p q ord
  | .pre p t => .pre p t
  | .cross ps ord => .cross ps ord
  | .addGP m mean kernel left right => .addGP m (mean.at' d) (kernel.at' d) (left.at' d) right
  | .call m p => .call m p
  | .condition m obs => .condition m (obs.at' d)
  | .getM m p => .getM m p
  | .getK m p q => .getK m p q
  | .name m p s => .name m p s
  | .gpName p s => .gpName p s
  | .enter m => .enter m
  | .exit m => .exit m

/-- Properties of kernels, means and observations that are kept by everything that programs do. -/
structure Keep where
  K : BKExpr → Prop
  M : BMExpr → Prop
  O : BObs → Prop
  F : Fn → Prop
  T : InTr → Prop
  G : Fn → Fn → Prop
  C : List ℕ → Prop
  zero : K .zero
  add {a b} : K a → K b → K (.add a b)
  mul {a b} : K a → K b → K (.mul a b)
  scale {c k} : K k → K (.scale c k)
  rev {k} : K k → K (.rev k)
  pre {t u k} : T t → T u → K k → K (.pre t u k)
  tprod {f g} : G f g → K (.tprod f g)
  adk {k} : K k → K (.adk k)
  mok {m ps} : C ps → K (.mok m ps)
  post {p x noise y kij kzi kzj kzz} : O (.exact p x noise y) → K kij → K kzi → K kzj → K kzz → K (.post kij kzi kzj x kzz noise)
  pseudo {pu p o kij kzi kzj kzz kzx kxx} : O (.pseudo pu p o) → K kij → K kzi → K kzj → K kzz → K kzx → K kxx → K (.pseudo kij kzi kzj kzz kzx kxx o)
  addM {a b} : M a → M b → M (.add a b)
  mulM {a b} : M a → M b → M (.mul a b)
  scaleM {c a} : M a → M (.scale c a)
  preM {t a} : T t → M a → M (.pre t a)
  fn {f} : M (.fn f)
  mom {m ps} : C ps → M (.mom m ps)
  postM {p x noise y mi mz kzi kzz} : O (.exact p x noise y) → M mi → M mz → K kzi → K kzz → M (.post mi mz kzi x kzz noise y)
  pseudoM {pu p o mi mz mx kzi kzz kzx kxx} : O (.pseudo pu p o) → M mi → M mz → M mx → K kzi → K kzz → K kzx → K kxx → M (.pseudo mi mz mx kzi kzz kzx kxx o)
  meanOf {m p} : F (.meanOf m p)
  diag {f} : F f → G f f
  ones {f} : F f → G f (.const 1)
  none : T .none
  toFdd {j} : T (.toFdd j)
  neutral {t} : T t → T t.neutral
  cons {p ps} : C (p :: ps)

variable {d : List ℕ} {P : Keep} {α β γ δ : Type}

/-- Left rules that keep the property. -/
def Keep.L (P : Keep) : BLRule → Prop
  | .zero => True
  | .const k => P.K k
  | .fn f => ∀ j, P.K (f j)
  | .look _ => True
  | .lookR _ => True
  | .add a b => P.L a ∧ P.L b
  | .scale _ a => P.L a
  | .tmul f g a => P.G f g ∧ P.L a
  | .pre t u a => P.T t ∧ P.T u ∧ P.L a
  | .cross _ ps => P.C ps

/-- Measures all of whose means, kernels and rules have the property. -/
structure Keep.S (P : Keep) (s : BMState) : Prop where
  mean : ∀ e ∈ s.means.store, P.M e.2
  meanRule : ∀ e ∈ s.means.rules, P.O e.2.obs
  kernel : ∀ e ∈ s.kernels.store, P.K e.2
  rule : ∀ e ∈ s.kernels.rules, P.O e.2.obs
  left : ∀ e ∈ s.kernels.leftRules, P.L e.2.2

/-- Heaps of such measures. -/
def Keep.W (P : Keep) (w : BWorld) : Prop := ∀ s ∈ w.ms, P.S s

/-- Operations with such arguments. -/
def Keep.Op (P : Keep) : BOp → Prop
  | .gp mean kernel _ _ => P.M mean ∧ P.K kernel
  | .fmul _ f => P.F f
  | .pre _ t => P.T t
  | .addGP _ mean kernel left _ => P.M mean ∧ P.K kernel ∧ P.L left
  | .condition _ obs => P.O obs
  | _ => True

/-- Running `x` keeps the property, and does at the index `d` what `y` does there. The result of `x` satisfies `Q`, and is `f` of it at the index. -/
def At (d : List ℕ) (P : Keep) (Q : α → Prop) (f : α → β) (x : BM α) (y : M β) : Prop :=
  ∀ w, P.W w → match x w with
    | .ok a w' => P.W w' ∧ Q a ∧ y (w.at' d) = .ok (f a) (w'.at' d)
    | .error e w' => P.W w' ∧ y (w.at' d) = .error e (w'.at' d)

/-- The result is a number or nothing. -/
abbrev Plain (d : List ℕ) (P : Keep) (x : BM α) (y : M α) : Prop := At d P (fun _ => True) id x y

theorem At.bind {Q : α → Prop} {f : α → β} {x : BM α} {y : M β} {Q' : γ → Prop} {g : γ → δ} {k : α → BM γ} {k' : β → M δ} (h : At d P Q f x y)
    (h' : ∀ a, Q a → At d P Q' g (k a) (k' (f a))) : At d P Q' g (x >>= k) (y >>= k') := by
  intro w hw
  have h1 := h w hw
  show match EStateM.bind x k w with
    | .ok a w' => P.W w' ∧ Q' a ∧ EStateM.bind y k' (w.at' d) = .ok (g a) (w'.at' d)
    | .error e w' => P.W w' ∧ EStateM.bind y k' (w.at' d) = .error e (w'.at' d)
  unfold EStateM.bind
  cases hx : x w with
  | ok a w' =>
    rw [hx] at h1
    obtain ⟨h2, h3, h4⟩ := h1
    rw [h4]
    exact h' a h3 w' h2
  | error e w' =>
    rw [hx] at h1
    obtain ⟨h2, h4⟩ := h1
    rw [h4]
    exact ⟨h2, rfl⟩

theorem At.pure {Q : α → Prop} {f : α → β} {a : α} {b : β} (h : Q a) (e : b = f a) : At d P Q f (Pure.pure a) (Pure.pure b) := by
  subst e
  exact fun w hw => ⟨hw, h, rfl⟩

theorem At.throw {Q : α → Prop} {f : α → β} {e : Err} : At d P Q f (throw e) (throw e) := fun _ hw => ⟨hw, rfl⟩

theorem Plain.pure {a : α} : Plain d P (Pure.pure a) (Pure.pure a) := At.pure trivial rfl

theorem At.get : At d P P.W (·.at' d) get get := fun _ hw => ⟨hw, hw, rfl⟩

theorem At.getMeas (m : MId) : At d P P.S (·.at' d) (getMeas m) (Stheno.getMeas m) := by
  intro w hw
  unfold Bat.getMeas Stheno.getMeas BWorld.at'
  simp only [List.getElem?_map]
  cases h : w.ms[m]? with
  | none => exact ⟨hw, rfl⟩
  | some s => exact ⟨hw, hw s (List.mem_of_getElem? h), rfl⟩

theorem At.measuresOf (p : PId) : Plain d P (measuresOf p) (Stheno.measuresOf p) := by
  intro w hw
  unfold Bat.measuresOf Stheno.measuresOf BWorld.at'
  simp only
  cases h : w.gps[p]? with
  | none => exact ⟨hw, rfl⟩
  | some s => exact ⟨hw, trivial, rfl⟩

theorem mem_modify {l : List α} {f : α → α} {m : ℕ} {a : α} (h : a ∈ l.modify m f) : a ∈ l ∨ ∃ b ∈ l, a = f b := by
  obtain ⟨i, hi⟩ := List.mem_iff_getElem?.1 h
  rw [List.getElem?_modify] at hi
  obtain ⟨b, hb, rfl⟩ := Option.map_eq_some_iff.1 hi
  have := List.mem_of_getElem? hb
  split
  · exact .inr ⟨b, this, rfl⟩
  · exact .inl this

theorem map_modify {f : α → α} {g : α → β} {f' : β → β} (h : ∀ a, g (f a) = f' (g a)) (l : List α) (m : ℕ) : (l.modify m f).map g = (l.map g).modify m f' := by
  apply List.ext_getElem?
  intro i
  simp only [List.getElem?_map, List.getElem?_modify]
  cases l[i]? with
  | none => rfl
  | some a =>
    split
    · exact congrArg some (h a)
    · rfl

theorem At.modMeas (m : MId) {f : BMState → BMState} {f' : MState → MState} (h : ∀ s, P.S s → P.S (f s)) (h' : ∀ s, (f s).at' d = f' (s.at' d)) :
    Plain d P (modMeas m f) (Stheno.modMeas m f') := by
  intro w hw
  refine ⟨fun s hs => ?_, trivial, ?_⟩
  · rcases mem_modify hs with hs | ⟨t, ht, rfl⟩
    · exact hw s hs
    · exact h t (hw t ht)
  · show EStateM.Result.ok _ _ = EStateM.Result.ok _ _
    congr 1
    unfold BWorld.at'
    simp only [map_modify h']

theorem At.mod_bind (m : MId) {f : BMState → BMState} {f' : MState → MState} {Q : γ → Prop} {g : γ → δ} {k : Unit → BM γ} {k' : Unit → M δ}
    (h : ∀ s, P.S s → P.S (f s)) (h' : ∀ s, (f s).at' d = f' (s.at' d)) (h2 : At d P Q g (k ()) (k' ())) : At d P Q g (Bat.modMeas m f >>= k) (Stheno.modMeas m f' >>= k') :=
  (At.modMeas m h h').bind fun _ _ => h2

theorem Keep.S.same {s t : BMState} (hs : P.S s) (h1 : t.means = s.means) (h2 : t.kernels.store = s.kernels.store) (h3 : t.kernels.rules = s.kernels.rules)
    (h4 : t.kernels.leftRules = s.kernels.leftRules) : P.S t :=
  ⟨h1 ▸ hs.mean, h1 ▸ hs.meanRule, h2 ▸ hs.kernel, h3 ▸ hs.rule, h4 ▸ hs.left⟩

theorem At.modify {f : BWorld → BWorld} {f' : World → World} (h : ∀ w, P.W w → P.W (f w)) (h' : ∀ w, (f w).at' d = f' (w.at' d)) :
    Plain d P (modify f) (modify f') := by
  intro w hw
  refine ⟨h w hw, trivial, ?_⟩
  show EStateM.Result.ok _ _ = EStateM.Result.ok _ _
  congr 1
  exact (h' w).symm

theorem At.forM {f : MId → BM Unit} {f' : MId → M Unit} (h : ∀ m, Plain d P (f m) (f' m)) : ∀ l : List ℕ, Plain d P (l.forM f) (l.forM f')
  | [] => Plain.pure
  | m :: l => (h m).bind fun _ _ => At.forM h l

theorem At.mapM {f : ℕ → BM (List ℕ)} {f' : ℕ → M (List ℕ)} (h : ∀ m, Plain d P (f m) (f' m)) : ∀ l : List ℕ, Plain d P (l.mapM f) (l.mapM f')
  | [] => by
    rw [List.mapM_nil, List.mapM_nil]
    exact Plain.pure
  | m :: l => by
    rw [List.mapM_cons, List.mapM_cons]
    exact (h m).bind fun _ _ => (At.mapM h l).bind fun _ _ => Plain.pure

/-! ### Kernels -/

theorem kadd_at (a b : BKExpr) : (kadd a b).at' d = Stheno.kadd (a.at' d) (b.at' d) := by cases a <;> cases b <;> rfl
theorem kmul_at (a b : BKExpr) : (kmul a b).at' d = Stheno.kmul (a.at' d) (b.at' d) := by cases a <;> cases b <;> rfl
theorem kscale_at (c : ℝ) (a : BKExpr) : (kscale c a).at' d = Stheno.kscale c (a.at' d) := by cases a <;> rfl
theorem krev_at (a : BKExpr) : (krev a).at' d = Stheno.krev (a.at' d) := by cases a <;> rfl
theorem kpre_at (t u : InTr) (a : BKExpr) : (kpre t u a).at' d = Stheno.kpre t u (a.at' d) := by cases a <;> rfl

theorem Keep.kadd {a b : BKExpr} (ha : P.K a) (hb : P.K b) : P.K (kadd a b) := by
  unfold Bat.kadd
  split
  · exact hb
  · exact ha
  · exact P.add ha hb

theorem Keep.kmul {a b : BKExpr} (ha : P.K a) (hb : P.K b) : P.K (kmul a b) := by
  unfold Bat.kmul
  split
  · exact ha
  · exact hb
  · exact P.mul ha hb

theorem Keep.kscale {c : ℝ} {a : BKExpr} (ha : P.K a) : P.K (kscale c a) := by
  unfold Bat.kscale
  split
  · exact ha
  · exact P.scale ha

theorem Keep.krev {a : BKExpr} (ha : P.K a) : P.K (krev a) := by
  unfold Bat.krev
  split
  · exact ha
  · exact P.rev ha

theorem Keep.kpre {t u : InTr} {a : BKExpr} (ht : P.T t) (hu : P.T u) (ha : P.K a) : P.K (kpre t u a) := by
  unfold Bat.kpre
  split
  · exact ha
  · exact P.pre ht hu ha

/-! ### Lookups -/

/-- The result is a kernel. -/
abbrev AtK (d : List ℕ) (P : Keep) (x : BM BKExpr) (y : M KExpr) : Prop := At d P P.K (·.at' d) x y

/-- The result is a mean. -/
abbrev AtM (d : List ℕ) (P : Keep) (x : BM BMExpr) (y : M MExpr) : Prop := At d P P.M (·.at' d) x y

theorem runL_at {look : PId → PId → BM BKExpr} {look' : PId → PId → M KExpr} (h : ∀ i j, AtK d P (look i j) (look' i j)) (j : PId) :
    ∀ l : BLRule, P.L l → AtK d P (runL look j l) (Stheno.runL look' j (l.at' d))
  | .zero, _ => At.pure P.zero rfl
  | .const _, hl => At.pure hl rfl
  | .fn _, hl => At.pure (hl j) rfl
  | .look p, _ => h p j
  | .lookR p, _ => h j p
  | .add a b, hl => (runL_at h j a hl.1).bind fun _ ha => (runL_at h j b hl.2).bind fun _ hb => At.pure (P.kadd ha hb) (kadd_at _ _).symm
  | .scale _ a, hl => (runL_at h j a hl).bind fun _ ha => At.pure (P.kscale ha) (kscale_at _ _).symm
  | .tmul f g a, hl => (runL_at h j a hl.2).bind fun _ ha => At.pure (P.kmul (P.tprod hl.1) ha) (kmul_at (.tprod f g) _).symm
  | .pre _ _ a, hl => (runL_at h j a hl.2.2).bind fun _ ha => At.pure (P.kpre hl.1 hl.2.1 ha) (kpre_at _ _ _).symm
  | .cross _ _, hl => At.pure (P.adk (P.pre P.none P.toFdd (P.mok hl))) rfl

theorem runR_at {look : PId → PId → BM BKExpr} {look' : PId → PId → M KExpr} (h : ∀ i j, AtK d P (look i j) (look' i j)) (i : PId) :
    ∀ r : RRule, AtK d P (runR look i r) (Stheno.runR look' i r)
  | .zero => At.pure P.zero rfl
  | .rev p => (h p i).bind fun _ hk => At.pure (P.krev hk) (krev_at _).symm
  | .look p => h i p

theorem obsKernel_at {look : PId → PId → BM BKExpr} {look' : PId → PId → M KExpr} (h : ∀ i j, AtK d P (look i j) (look' i j)) {o : BObs} (ho : P.O o)
    (i j : PId) : AtK d P (obsKernel look (throw .runtime) o i j) (Stheno.obsKernel look' (throw .runtime) (o.at' d) i j) := by
  cases o with
  | exact p x noise y =>
    unfold obsKernel Stheno.obsKernel BObs.at'
    simp only [BInput.size_at]
    split
    · exact h i j
    · exact (h i j).bind fun _ h1 => (h p i).bind fun _ h2 => (h p j).bind fun _ h3 => (h p p).bind fun _ h4 => At.pure (P.post ho h1 h2 h3 h4) rfl
  | pseudo pu p o =>
    unfold obsKernel Stheno.obsKernel BObs.at'
    refine (h i j).bind fun _ h1 => (h pu i).bind fun _ h2 => (h pu j).bind fun _ h3 => (h pu p).bind fun _ h4 => (h pu pu).bind fun _ h5 => ?_
    show At d P P.K _ (if o.isDiagonal then _ else _) (if o.isDiagonal then _ else _)
    split
    · exact (h p p).bind fun _ h6 => At.pure (P.pseudo ho h1 h2 h3 h5 h4 h6) rfl
    · exact At.throw

theorem obsMean_at {lookM : PId → BM BMExpr} {lookM' : PId → M MExpr} {look : PId → PId → BM BKExpr} {look' : PId → PId → M KExpr}
    (hM : ∀ i, AtM d P (lookM i) (lookM' i)) (h : ∀ i j, AtK d P (look i j) (look' i j)) {o : BObs} (ho : P.O o)
    (i : PId) : AtM d P (obsMean lookM look (throw .runtime) o i) (Stheno.obsMean lookM' look' (throw .runtime) (o.at' d) i) := by
  cases o with
  | exact p x noise y =>
    unfold obsMean Stheno.obsMean BObs.at'
    simp only [BInput.size_at]
    split
    · exact hM i
    · exact (hM i).bind fun _ h1 => (hM p).bind fun _ h2 => (h p i).bind fun _ h3 => (h p p).bind fun _ h4 => At.pure (P.postM ho h1 h2 h3 h4) rfl
  | pseudo pu p o =>
    unfold obsMean Stheno.obsMean BObs.at'
    refine (hM i).bind fun _ h1 => (hM pu).bind fun _ h2 => (h pu i).bind fun _ h3 => (h pu p).bind fun _ h4 => (h pu pu).bind fun _ h5 => ?_
    show At d P P.M _ (if o.isDiagonal then _ else _) (if o.isDiagonal then _ else _)
    split
    · exact (h p p).bind fun _ h6 => (hM p).bind fun _ h7 => At.pure (P.pseudoM ho h1 h2 h7 h3 h5 h4 h6) rfl
    · exact At.throw

/-- The builder at the index `d` of the batch. -/
def buildAt (d : List ℕ) : Build BURule BLRule RRule → Build URule LRule RRule
  | .univ u i j => .univ (u.at' d) i j
  | .left l j => .left (l.at' d) j
  | .right r i => .right r i

/-- Builders that keep the property. -/
def Keep.B (P : Keep) : Build BURule BLRule RRule → Prop
  | .univ u _ _ => P.O u.obs
  | .left l _ => P.L l
  | .right _ _ => True

theorem find_map (f : α → β) (p : β → Bool) (l : List α) : (l.map f).find? p = (l.find? fun a => p (f a)).map f := by
  rw [List.find?_map]
  rfl

theorem lookup_map [BEq γ] (f : α → β) (i : γ) : ∀ l : List (γ × α), (l.map fun e => (e.1, f e.2)).lookup i = (l.lookup i).map f
  | [] => rfl
  | e :: l => by
    obtain ⟨j, a⟩ := e
    simp only [List.map_cons, List.lookup_cons, lookup_map f i l]
    split <;> rfl

theorem builder_at (s : BMState) (i j : ℕ) : (s.at' d).kernels.builder i j = (s.kernels.builder i j).map (buildAt d) := by
  unfold LazyMat.builder BMState.at'
  simp only [find_map]
  cases h1 : s.kernels.rules.find? fun r => r.1.contains i && r.1.contains j with
  | some r => rfl
  | none =>
    simp only [Option.map_none]
    cases h2 : s.kernels.leftRules.find? fun r => i == r.1 && r.2.1.contains j with
    | some r => rfl
    | none =>
      simp only [Option.map_none]
      cases h3 : s.kernels.rightRules.find? fun r => r.2.1.contains i && j == r.1 with
      | some r => rfl
      | none => rfl

theorem builder_keep {s : BMState} (hs : P.S s) {i j : ℕ} {b : Build BURule BLRule RRule} (h : s.kernels.builder i j = some b) : P.B b := by
  unfold LazyMat.builder at h
  split at h
  · next r e =>
    cases h
    exact hs.rule _ (List.mem_of_find?_eq_some e)
  · split at h
    · next r e =>
      cases h
      exact hs.left _ (List.mem_of_find?_eq_some e)
    · split at h
      · cases h
        trivial
      · cases h

theorem builderM_at (s : BMState) (i : ℕ) : (s.at' d).means.builder i = (s.means.builder i).map (·.at' d) := by
  unfold LazyVec.builder BMState.at'
  simp only [find_map, Option.map_map]
  rfl

theorem lookup_mem [BEq γ] [LawfulBEq γ] {i : γ} {a : α} {l : List (γ × α)} (h : l.lookup i = some a) : (i, a) ∈ l := by
  induction l with
  | nil => cases h
  | cons e l ih =>
    obtain ⟨j, b⟩ := e
    rw [List.lookup_cons] at h
    split at h
    · next hj =>
      cases h
      obtain rfl := eq_of_beq hj
      exact List.mem_cons_self
    · exact List.mem_cons_of_mem _ (ih h)

theorem setK_keep {s : BMState} (hs : P.S s) {i j : ℕ} {k : BKExpr} (hk : P.K k) : P.S { s with kernels := s.kernels.set i j k } :=
  ⟨hs.mean, hs.meanRule, fun e he => by
    rcases List.mem_cons.1 he with rfl | he
    · exact hk
    · exact hs.kernel e he, hs.rule, hs.left⟩

theorem setM_keep {s : BMState} (hs : P.S s) {i : ℕ} {a : BMExpr} (ha : P.M a) : P.S { s with means := s.means.set i a } :=
  ⟨fun e he => by
    rcases List.mem_cons.1 he with rfl | he
    · exact ha
    · exact hs.mean e he, hs.meanRule, hs.kernel, hs.rule, hs.left⟩

theorem getKAux_at : ∀ (n : ℕ) (m : MId) (i j : PId), AtK d P (getKAux n m i j) (Stheno.getKAux n m i j)
  | 0, _, _, _ => At.throw
  | n + 1, m, i, j => by
    refine (At.getMeas m).bind fun s hs => ?_
    have e : (s.at' d).kernels.find i j = (s.kernels.find i j).map (·.at' d) := lookup_map _ _ _
    rw [e, builder_at]
    cases h : s.kernels.find i j with
    | some k => exact At.pure (hs.kernel _ (lookup_mem h)) rfl
    | none =>
      refine At.bind (Q := P.K) (f := (·.at' d)) ?_ fun k hk => (At.modMeas m (fun s hs => setK_keep hs hk) fun s => rfl).bind fun _ _ => At.pure hk rfl
      cases h : s.kernels.builder i j with
      | none => exact At.throw
      | some b =>
        have := builder_keep hs h
        cases b with
        | univ u i j => exact obsKernel_at (fun i j => getKAux_at n _ i j) this i j
        | left l j => exact runL_at (fun i j => getKAux_at n _ i j) j l this
        | right r i => exact runR_at (fun i j => getKAux_at n _ i j) i r

theorem getMAux_at : ∀ (n : ℕ) (m : MId) (i : PId), AtM d P (getMAux n m i) (Stheno.getMAux n m i)
  | 0, _, _ => At.throw
  | n + 1, m, i => by
    refine (At.getMeas m).bind fun s hs => ?_
    have e : (s.at' d).means.find i = (s.means.find i).map (·.at' d) := lookup_map _ _ _
    rw [e, builderM_at]
    cases h : s.means.find i with
    | some k => exact At.pure (hs.mean _ (lookup_mem h)) rfl
    | none =>
      refine At.bind (Q := P.M) (f := (·.at' d)) ?_ fun k hk => (At.modMeas m (fun s hs => setM_keep hs hk) fun s => rfl).bind fun _ _ => At.pure hk rfl
      cases h : s.means.builder i with
      | none => exact At.throw
      | some b =>
        obtain ⟨r, hr, rfl⟩ := Option.map_eq_some_iff.1 h
        exact obsMean_at (fun i => getMAux_at n _ i) (fun i j => getKAux_at n _ i j) (hs.meanRule _ (List.mem_of_find?_eq_some hr)) i

theorem fuel_at (w : BWorld) : (w.at' d).fuel = w.fuel := by
  unfold World.fuel BWorld.fuel World.width BWorld.width BWorld.at'
  simp only [List.length_map, List.map_map]
  rfl

theorem getK_at (m : MId) (i j : PId) : AtK d P (getK m i j) (Stheno.getK m i j) := by
  refine At.get.bind fun w _ => ?_
  rw [fuel_at]
  exact getKAux_at _ m i j

theorem getM_at (m : MId) (i : PId) : AtM d P (getM m i) (Stheno.getM m i) := by
  refine At.get.bind fun w _ => ?_
  rw [fuel_at]
  exact getMAux_at _ m i

/-! ### Methods of `Measure` -/

theorem addP_at (m : MId) (p : PId) : Plain d P (addP m p) (Stheno.addP m p) :=
  At.mod_bind m (fun _ hs => hs.same rfl rfl rfl rfl) (fun _ => rfl) (At.modify (fun _ hw => hw) fun _ => rfl)

theorem left_keep {s : BMState} (hs : P.S s) {i : ℕ} {l : BLRule} (hl : P.L l) (dom : List ℕ) : P.S { s with kernels := s.kernels.addLeftRule i dom l } :=
  ⟨hs.mean, hs.meanRule, hs.kernel, hs.rule, fun e he => by
    rcases List.mem_append.1 he with he | he
    · exact hs.left e he
    · obtain rfl := List.mem_singleton.1 he
      exact hl⟩

theorem left_at (s : BMState) (i : ℕ) (l : BLRule) :
    BMState.at' d { s with kernels := s.kernels.addLeftRule i s.pids l } = { s.at' d with kernels := (s.at' d).kernels.addLeftRule i (s.at' d).pids (l.at' d) } := by
  simp [BMState.at', LazyMat.addLeftRule]

theorem update_at (m : MId) (p : PId) {mean : BMExpr} {kernel : BKExpr} {left : BLRule} (h1 : P.M mean) (h2 : P.K kernel) (h3 : P.L left) (right : Option RRule) :
    Plain d P (update m p mean kernel left right) (Stheno.update m p (mean.at' d) (kernel.at' d) (left.at' d) right) := by
  refine (At.modMeas m (fun _ hs => setM_keep hs h1) fun _ => rfl).bind fun _ _ => (At.modMeas m (fun _ hs => setK_keep hs h2) fun _ => rfl).bind fun _ _ =>
    (At.modMeas m (fun _ hs => left_keep hs h3 _) fun s => left_at s p left).bind fun _ _ => ?_
  cases right with
  | none => exact At.mod_bind m (fun _ hs => hs.same rfl rfl rfl rfl) (fun _ => rfl) (addP_at m p)
  | some r => exact At.mod_bind m (fun _ hs => hs.same rfl rfl rfl rfl) (fun _ => rfl) (addP_at m p)

theorem newGP_at : Plain d P newGP Stheno.newGP := fun _ hw => ⟨hw, trivial, rfl⟩

theorem newMeasure_at : Plain d P newMeasure Stheno.newMeasure := by
  intro w hw
  refine ⟨fun s hs => ?_, trivial, ?_⟩
  · rcases List.mem_append.1 hs with hs | hs
    · exact hw s hs
    · obtain rfl := List.mem_singleton.1 hs
      exact ⟨by simp, by simp, by simp, by simp, by simp⟩
  · show EStateM.Result.ok _ _ = EStateM.Result.ok _ _
    simp [BWorld.at', BMState.at']

theorem addIndependent_at (m : MId) (p : PId) {mean : BMExpr} {kernel : BKExpr} (h1 : P.M mean) (h2 : P.K kernel) :
    Plain d P (addIndependent m p mean kernel) (Stheno.addIndependent m p (mean.at' d) (kernel.at' d)) :=
  At.mod_bind m (fun _ hs => setM_keep hs h1) (fun _ => rfl) <| At.mod_bind m (fun _ hs => setK_keep hs h2) (fun _ => rfl) <|
    At.mod_bind m (fun _ hs => left_keep hs (l := .zero) trivial _) (fun s => left_at s p .zero) <| At.mod_bind m (fun _ hs => hs.same rfl rfl rfl rfl) (fun _ => rfl) (addP_at m p)

theorem refs_at : ∀ l : BLRule, (l.at' d).refs = l.refs
  | .zero => rfl
  | .const _ => rfl
  | .fn _ => rfl
  | .look _ => rfl
  | .lookR _ => rfl
  | .add a b => congrArg₂ (· ++ ·) (refs_at a) (refs_at b)
  | .scale _ a => refs_at a
  | .tmul _ _ a => refs_at a
  | .pre _ _ a => refs_at a
  | .cross _ _ => rfl

theorem addGP_at (m : MId) {mean : BMExpr} {kernel : BKExpr} {left : BLRule} (h1 : P.M mean) (h2 : P.K kernel) (h3 : P.L left) (right : Option RRule) :
    Plain d P (addGP m mean kernel left right) (Stheno.addGP m (mean.at' d) (kernel.at' d) (left.at' d) right) := by
  refine (At.getMeas m).bind fun s _ => ?_
  rw [refs_at]
  show At d P _ _ (if left.refs.all (s.ps.contains ·) then _ else _) (if left.refs.all (s.ps.contains ·) then _ else _)
  split
  · exact newGP_at.bind fun p _ => (update_at m p h1 h2 h3 none).bind fun _ _ => Plain.pure
  · exact At.throw

theorem callGP_at (m : MId) (p : PId) : Plain d P (callGP m p) (Stheno.callGP m p) :=
  newGP_at.bind fun pc _ => (getM_at m p).bind fun _ h1 => (getK_at m p p).bind fun _ h2 => (update_at m pc h1 h2 (left := .look p) trivial _).bind fun _ _ => Plain.pure

theorem primary_at (p : PId) : Plain d P (primary p) (Stheno.primary p) := by
  refine (At.measuresOf p).bind fun ms _ => ?_
  cases ms with
  | nil => exact At.throw
  | cons m _ => exact Plain.pure

theorem assertSame_at (p : PId) : ∀ ps : List PId, Plain d P (assertSame p ps) (Stheno.assertSame p ps)
  | [] => Plain.pure
  | q :: qs => by
    refine (primary_at p).bind fun mp _ => (primary_at q).bind fun mq _ => ?_
    show At d P _ _ (if mp = mq then _ else _) (if mp = mq then _ else _)
    split
    · exact assertSame_at p qs
    · exact At.throw

theorem mSumFn_at (m : MId) (res p : PId) (f : Fn) : Plain d P (mSumFn m res p f) (Stheno.mSumFn m res p f) :=
  (getM_at m p).bind fun _ h1 => (getK_at m p p).bind fun _ h2 => update_at m res (P.addM h1 P.fn) h2 (left := .look p) trivial none

theorem mSum_at (m : MId) (res p1 p2 : PId) : Plain d P (mSum m res p1 p2) (Stheno.mSum m res p1 p2) :=
  (assertSame_at p1 [p2]).bind fun _ _ => (getM_at m p1).bind fun _ h1 => (getM_at m p2).bind fun _ h2 => (getK_at m p1 p1).bind fun _ h3 =>
    (getK_at m p2 p2).bind fun _ h4 => (getK_at m p1 p2).bind fun _ h5 => (getK_at m p2 p1).bind fun _ h6 => by
      have := update_at (d := d) m res (P.addM h1 h2) (P.kadd (P.kadd (P.kadd h3 h4) h5) h6) (left := .add (.look p1) (.look p2)) ⟨trivial, trivial⟩ none
      simp only [kadd_at] at this
      exact this

theorem mScale_at (m : MId) (res p : PId) (c : ℝ) : Plain d P (mScale m res p c) (Stheno.mScale m res p c) :=
  (getM_at m p).bind fun _ h1 => (getK_at m p p).bind fun _ h2 => by
    have := update_at (d := d) m res (P.scaleM (c := c) h1) (P.kscale (c := c ^ 2) h2) (left := .scale c (.look p)) trivial none
    simp only [kscale_at] at this
    exact this

theorem mFmul_at (m : MId) (res p : PId) {f : Fn} (hf : P.F f) : Plain d P (mFmul m res p f) (Stheno.mFmul m res p f) :=
  (getM_at m p).bind fun _ h1 => (getK_at m p p).bind fun _ h2 => by
    have := update_at (d := d) m res (P.mulM (P.fn (f := f)) h1) (P.kmul (P.tprod (P.diag hf)) h2) (left := .tmul f (.const 1) (.look p)) ⟨P.ones hf, trivial⟩ none
    simp only [kmul_at] at this
    exact this

theorem mRem_at (m : MId) (res p1 p2 : PId) : Plain d P (mRem m res p1 p2) (Stheno.mRem m res p1 p2) :=
  (getM_at m p1).bind fun _ h1 => (getM_at m p2).bind fun _ h2 => (getK_at m p1 p1).bind fun _ h3 =>
    (getK_at m p2 p2).bind fun _ h4 => (getK_at m p1 p2).bind fun _ h5 => (getK_at m p2 p1).bind fun _ h6 => by
      have := addIndependent_at (d := d) m res (P.mulM (P.scaleM (c := -1) h1) h2) (P.kadd (P.kmul h3 h4) (P.kmul h5 h6))
      simp only [kadd_at, kmul_at] at this
      exact this

theorem mMul_at (m : MId) (res p1 p2 : PId) : Plain d P (mMul m res p1 p2) (Stheno.mMul m res p1 p2) :=
  (assertSame_at p1 [p2]).bind fun _ _ => newGP_at.bind fun t1 _ => newGP_at.bind fun a _ => (mFmul_at m a p2 P.meanOf).bind fun _ _ =>
    newGP_at.bind fun b _ => (mFmul_at m b p1 P.meanOf).bind fun _ _ => (mSum_at m t1 a b).bind fun _ _ => newGP_at.bind fun t2 _ =>
    (mRem_at m t2 p1 p2).bind fun _ _ => mSum_at m res t1 t2

theorem mPre_at (m : MId) (res p : PId) {t : InTr} (ht : P.T t) : Plain d P (mPre m res p t) (Stheno.mPre m res p t) :=
  (getM_at m p).bind fun _ h1 => (getK_at m p p).bind fun _ h2 => by
    have := update_at (d := d) m res (P.preM ht h1) (P.kpre ht ht h2) (left := .pre t t.neutral (.look p)) ⟨ht, P.neutral ht, trivial⟩ none
    simp only [kpre_at] at this
    exact this

theorem mCross_at (m : MId) (res : PId) {ps : List PId} (h : P.C ps) : Plain d P (mCross m res ps) (Stheno.mCross m res ps) :=
  update_at m res (P.mom h) (P.mok h) (left := .cross m ps) h none

theorem condition_at (m : MId) {o : BObs} (ho : P.O o) : Plain d P (condition m o) (Stheno.condition m (o.at' d)) := by
  refine (At.getMeas m).bind fun s _ => newMeasure_at.bind fun post _ => ?_
  refine At.mod_bind post (fun _ hs => hs.same rfl rfl rfl rfl) (fun _ => rfl) ?_
  refine At.mod_bind post (fun t hs => ⟨hs.mean, fun e he => ?_, hs.kernel, hs.rule, hs.left⟩) (fun t => ?_) ?_
  · rcases List.mem_append.1 he with he | he
    · exact hs.meanRule e he
    · obtain rfl := List.mem_singleton.1 he
      exact ho
  · simp [BMState.at', LazyVec.addRule, BURule.at']
  refine At.mod_bind post (fun t hs => ⟨hs.mean, hs.meanRule, hs.kernel, fun e he => ?_, hs.left⟩) (fun t => ?_) ?_
  · rcases List.mem_append.1 he with he | he
    · exact hs.rule e he
    · obtain rfl := List.mem_singleton.1 he
      exact ho
  · simp [BMState.at', LazyMat.addRule, BURule.at']
  refine At.bind (Q := fun _ => True) (f := id) (At.forM (fun p => ?_) s.ps) fun _ _ => Plain.pure
  refine At.modify ?_ ?_
  · exact fun _ hw => hw
  · exact fun _ => rfl

theorem enter_at (m : MId) : Plain d P (enter m) (Stheno.enter m) :=
  (At.getMeas m).bind fun _ _ => At.get.bind fun _ _ =>
    At.mod_bind m (fun _ hs => hs.same rfl rfl rfl rfl) (fun _ => rfl) (At.modify (fun _ hw => hw) fun _ => rfl)

theorem exit_at (m : MId) : Plain d P (exit m) (Stheno.exit m) :=
  (At.getMeas m).bind fun _ _ => At.modify (fun _ hw => hw) fun _ => rfl

theorem setName_at (m : MId) (p : PId) (name : String) : Plain d P (setName m p name) (Stheno.setName m p name) := by
  refine (At.getMeas m).bind fun s _ => ?_
  have rest : Plain d P (do
      let s ← getMeas m
      if (s.gpsByName.lookup name).isSome then throw Err.runtime
      else modMeas m (fun s => { s with gpsByName := (name, p) :: s.gpsByName, namesByGp := (p, name) :: s.namesByGp })) (do
      let s ← Stheno.getMeas m
      if (s.gpsByName.lookup name).isSome then throw Err.runtime
      else Stheno.modMeas m (fun s => { s with gpsByName := (name, p) :: s.gpsByName, namesByGp := (p, name) :: s.namesByGp })) := by
    refine (At.getMeas m).bind fun s _ => ?_
    show At d P _ _ (if (s.gpsByName.lookup name).isSome then _ else _) (if (s.gpsByName.lookup name).isSome then _ else _)
    split
    · exact At.throw
    · exact At.modMeas m (fun _ hs => hs.same rfl rfl rfl rfl) (fun _ => rfl)
  have e : (s.at' d).namesByGp = s.namesByGp := rfl
  rw [e]
  cases s.namesByGp.lookup p with
  | none => exact rest
  | some old => exact At.mod_bind m (fun _ hs => hs.same rfl rfl rfl rfl) (fun _ => rfl) rest

/-! ### Operations -/

theorem intersection_at (p : PId) (ps : List PId) : Plain d P (intersection p ps) (Stheno.intersection p ps) :=
  (assertSame_at p ps).bind fun _ _ => (At.measuresOf p).bind fun _ _ => (At.mapM (fun q => At.measuresOf q) ps).bind fun _ _ => Plain.pure

theorem iterate_at (s ord : List MId) {f : MId → BM Unit} {f' : MId → M Unit} (h : ∀ m, Plain d P (f m) (f' m)) : Plain d P (iterate s ord f) (Stheno.iterate s ord f') := by
  unfold iterate Stheno.iterate
  split
  · exact At.forM h ord
  · exact At.throw

theorem gpUnary_at {f : MId → PId → PId → BM Unit} {f' : MId → PId → PId → M Unit} (h : ∀ m r p, Plain d P (f m r p) (f' m r p)) (p : PId) :
    Plain d P (gpUnary f p) (Stheno.gpUnary f' p) :=
  newGP_at.bind fun _ _ => (At.measuresOf p).bind fun ms _ => (At.forM (fun m => h m _ p) ms).bind fun _ _ => Plain.pure

theorem gpInit_at {mean : BMExpr} {kernel : BKExpr} (h1 : P.M mean) (h2 : P.K kernel) (measure : Option MId) (name : Option String) :
    Plain d P (gpInit mean kernel measure name) (Stheno.gpInit (mean.at' d) (kernel.at' d) measure name) := by
  refine newGP_at.bind fun p _ => ?_
  have hr : Plain d P (resolveMeasure measure) (Stheno.resolveMeasure measure) := by
    cases measure with
    | some m => exact (At.getMeas m).bind fun _ _ => Plain.pure
    | none =>
      refine At.get.bind fun w _ => ?_
      have e : (w.at' d).default = w.default := rfl
      rw [e]
      cases w.default with
      | some m => exact Plain.pure
      | none => exact newMeasure_at
  refine hr.bind fun m _ => (addIndependent_at m p h1 h2).bind fun _ _ => At.bind (Q := fun _ => True) (f := id) ?_ fun _ _ => Plain.pure
  cases name with
  | none => exact Plain.pure
  | some n =>
    show At d P _ _ (if n = "" then _ else _) (if n = "" then _ else _)
    split
    · exact Plain.pure
    · exact setName_at m p n

theorem gpCross_at (ps : List PId) (ord : List MId) : Plain d P (gpCross ps ord) (Stheno.gpCross ps ord) := by
  refine newGP_at.bind fun res _ => ?_
  cases ps with
  | nil => exact At.throw
  | cons p qs => exact (intersection_at p qs).bind fun s _ => (iterate_at s ord fun m => mCross_at m res P.cons).bind fun _ _ => Plain.pure

theorem void_at {x : BM α} {y : M α} (h : Plain d P x y) : Plain d P (do let _ ← x) (do let _ ← y) := h.bind fun _ _ => Plain.pure

theorem run_at : ∀ {o : BOp}, P.Op o → Plain d P o.run (o.at' d).run
  | .newMeasure, _ => void_at newMeasure_at
  | .newGP, _ => void_at newGP_at
  | .gp _ _ measure name, h => void_at (gpInit_at h.1 h.2 measure name)
  | .addFn p f, _ => void_at (gpUnary_at (fun m r p => mSumFn_at m r p f) p)
  | .add p q ord, _ => void_at (newGP_at.bind fun res _ => (intersection_at p [q]).bind fun s _ => (iterate_at s ord fun m => mSum_at m res p q).bind fun _ _ => Plain.pure)
  | .scale p c, _ => void_at (gpUnary_at (fun m r p => mScale_at m r p c) p)
  | .fmul p _, h => void_at (gpUnary_at (fun m r p => mFmul_at m r p h) p)
  | .mul p q ord, _ => void_at (newGP_at.bind fun res _ => (intersection_at p [q]).bind fun s _ => (iterate_at s ord fun m => mMul_at m res p q).bind fun _ _ => Plain.pure)
  | .pre p _, h => void_at (gpUnary_at (fun m r p => mPre_at m r p h) p)
  | .cross ps ord, _ => void_at (gpCross_at ps ord)
  | .addGP m _ _ _ right, h => void_at (addGP_at m h.1 h.2.1 h.2.2 right)
  | .call m p, _ => void_at (callGP_at m p)
  | .condition m _, h => void_at (condition_at m h)
  | .getM m p, _ => (getM_at m p).bind fun _ _ => Plain.pure
  | .getK m p q, _ => (getK_at m p q).bind fun _ _ => Plain.pure
  | .name m p s, _ => setName_at m p s
  | .gpName p s, _ => (At.measuresOf p).bind fun ms _ => At.forM (fun m => setName_at m p s) ms
  | .enter m, _ => enter_at m
  | .exit m, _ => exit_at m

end Bat

end Stheno
