import Verif.Stationary
import Verif.Product
import Verif.Post

/-!
# C47: stationarity

A GP that is called stationary has a kernel that does not change when both inputs are moved; and which operations keep the attribute.
-/

namespace Stheno

open Mat

section
variable {leaf : (Pt → Pt → ℝ) → Prop} {ops before after : List Op} {m : MId} {p q r : PId} {c : Pt} {xs ys : List Pt}

/-- **C47.** If `p` is called stationary in a measure and the user kernels that are called stationary are, then the kernel of `p` returns the same
when both inputs are moved by the same amount. -/
theorem C47_stationary (hl : Truthful leaf) (hp : StationaryIn (runOps ops {}) leaf m p) (hx : ∀ x ∈ xs, x.length = c.length)
    (hy : ∀ y ∈ ys, y.length = c.length) {A : Mat} (hA : KernelCall (runOps ops {}) m p p (.num xs) (.num ys) A) :
    ∃ B, KernelCall (runOps ops {}) m p p (.num (xs.map (translate c))) (.num (ys.map (translate c))) B ∧ B.Eqv A := by
  obtain ⟨k, hk, hs⟩ := hp
  obtain ⟨k', n, hk', hA⟩ := hA
  rw [hk] at hk'; cases hk'
  rcases stationary_K (lm := meanAt (runOps ops {})) (lk := kernelAt (runOps ops {})) hl n k hs c xs ys hx hy with
    ⟨_, h⟩ | ⟨B, A', h1, h2, h3⟩
  · rw [hA] at h; cases h
  · rw [hA] at h2; cases h2
    exact ⟨B, ⟨k, n, hk, h1⟩, h3⟩

/-- **C47, `elwise`.** -/
theorem C47_elwise (hl : Truthful leaf) (hp : StationaryIn (runOps ops {}) leaf m p) (hx : ∀ x ∈ xs, x.length = c.length)
    (hy : ∀ y ∈ ys, y.length = c.length) {u : List ℝ} :
    ElwiseCall (runOps ops {}) m p p (.num (xs.map (translate c))) (.num (ys.map (translate c))) u ↔
      ElwiseCall (runOps ops {}) m p p (.num xs) (.num ys) u := by
  obtain ⟨k, hk, hs⟩ := hp
  constructor
  · rintro ⟨k', n, hk', h⟩
    rw [hk] at hk'; cases hk'
    exact ⟨k, n, hk, by rw [← stationary_D hl n k hs c xs ys hx hy]; exact h⟩
  · rintro ⟨k', n, hk', h⟩
    rw [hk] at hk'; cases hk'
    exact ⟨k, n, hk, by rw [stationary_D hl n k hs c xs ys hx hy]; exact h⟩

/-- **C47, the attribute of a GP**, which is that of its kernel in its primary measure. -/
theorem C47_gp (hl : Truthful leaf) (hp : GPStationary (runOps ops {}) leaf p) (hx : ∀ x ∈ xs, x.length = c.length)
    (hy : ∀ y ∈ ys, y.length = c.length) : ∃ m, (groups (runOps ops {}) p).head? = some m ∧
      ∀ A, KernelCall (runOps ops {}) m p p (.num xs) (.num ys) A →
        ∃ B, KernelCall (runOps ops {}) m p p (.num (xs.map (translate c))) (.num (ys.map (translate c))) B ∧ B.Eqv A := by
  obtain ⟨m, hm, hp⟩ := hp
  exact ⟨m, hm, fun A hA => C47_stationary hl hp hx hy hA⟩

/-- **C47, variances.** All values of a process that is called stationary have the same variance. -/
theorem C47_variance (hl : Truthful leaf) (hp : StationaryIn (runOps ops {}) leaf m p) {x y : Pt} (hxy : x.length = y.length) {u : List ℝ}
    (hu : ElwiseCall (runOps ops {}) m p p (.num [x]) (.num [x]) u) : ElwiseCall (runOps ops {}) m p p (.num [y]) (.num [y]) u := by
  have e : translate (List.zipWith (· - ·) y x) x = y := by
    refine List.ext_getElem (by simp [translate, hxy]) fun i h1 h2 => ?_
    simp [translate]
  have h : ∀ z ∈ [x], z.length = (List.zipWith (· - ·) y x).length := by simp [hxy]
  have := (C47_elwise (c := List.zipWith (· - ·) y x) hl hp h h).2 hu
  simpa only [List.map_cons, List.map_nil, e] using this

/-! ## Which operations keep the attribute -/

/-- Operations that make a process from `p` without changing whether it is called stationary: multiples, sums with functions, copies, shifts,
stretches and selections of features. -/
def Op.KeepsStationary (p : PId) : Op → Prop
  | .scale p' _ | .addFn p' _ | .call _ p' => p' = p
  | .pre p' t => p' = p ∧ t.KeepsStationary
  | _ => False

/-- Operations that make a process from `p` which is not called stationary: derivatives, products with functions and transformations of the input by a function. -/
def Op.LosesStationary (p : PId) : Op → Prop
  | .diff p' _ | .fmul p' _ => p' = p
  | .pre p' t => p' = p ∧ ¬ t.KeepsStationary
  | _ => False

theorem kscale_stationary {s : ℝ} {k : KExpr} : (kscale s k).Stationary leaf ↔ k.Stationary leaf := by cases k <;> rfl

theorem kpre_stationary {t : InTr} {k : KExpr} (ht : t.KeepsStationary) : (kpre t t k).Stationary leaf ↔ k.Stationary leaf := by
  cases k <;> simp [kpre, KExpr.Stationary, ht]

theorem kadd_stationary {a b : KExpr} : (kadd a b).Stationary leaf ↔ a.Stationary leaf ∧ b.Stationary leaf := by
  cases a <;> cases b <;> simp [kadd, KExpr.Stationary]

theorem bind_stationary {o : Option KExpr} {f : KExpr → KExpr} {P : KExpr → Prop} (h : ∀ k, P (f k) ↔ P k) :
    (∃ k, (do let k ← o; pure (f k)) = some k ∧ P k) ↔ ∃ k, o = some k ∧ P k := by
  cases o with
  | none => exact ⟨fun ⟨k, e, _⟩ => (nomatch (show (Option.none : Option KExpr) = some k from e)), fun ⟨k, e, _⟩ => (nomatch e)⟩
  | some k =>
    constructor
    · rintro ⟨k', e, hp⟩
      cases (show some (f k) = some k' from e)
      exact ⟨k, rfl, (h k).1 hp⟩
    · rintro ⟨k', e, hp⟩
      cases e
      exact ⟨_, rfl, (h _).2 hp⟩

/-- **C47, operations that keep the attribute.** At any later time and in every measure. -/
theorem C47_keeps {o : Op} (ho : o.KeepsStationary p) (e : ops = before ++ o :: after) (hr : r = (runOps before {}).gps.length)
    (hat : Attached (runOps (before ++ [o]) {}) m r) :
    StationaryIn (runOps ops {}) leaf m r ↔ StationaryIn (runOps ops {}) leaf m p := by
  subst hr
  unfold StationaryIn
  cases o with
  | scale p' s =>
    cases ho
    rw [(look_written (older := []) (younger := []) e rfl hat).2.kernel]
    exact bind_stationary fun k => kscale_stationary
  | addFn p' f =>
    cases ho
    rw [(look_written (older := []) (younger := []) e rfl hat).2.kernel]
    exact Iff.rfl
  | call m' p' =>
    cases ho
    rw [(look_written (older := []) (younger := []) e rfl hat).2.kernel]
    exact Iff.rfl
  | pre p' t =>
    obtain ⟨rfl, ht⟩ := ho
    rw [(look_written (older := []) (younger := []) e rfl hat).2.kernel]
    exact bind_stationary fun k => kpre_stationary ht
  | _ => exact ho.elim

/-- **C47, operations that lose the attribute.** The result is only called stationary if the kernel of `p` is zero. -/
theorem C47_loses {o : Op} (ho : o.LosesStationary p) (e : ops = before ++ o :: after) (hr : r = (runOps before {}).gps.length)
    (hat : Attached (runOps (before ++ [o]) {}) m r) (h : StationaryIn (runOps ops {}) leaf m r) :
    kernelAt (runOps ops {}) m p p = some .zero := by
  subst hr
  obtain ⟨k, hk, hs⟩ := h
  cases o with
  | diff p' d =>
    cases ho
    rw [(look_written (older := []) (younger := []) e rfl hat).2.kernel] at hk
    obtain ⟨k', hk', hk⟩ := bind_some hk
    cases hk
    rw [hk']
    cases k' <;> first | rfl | exact hs.elim
  | fmul p' f =>
    cases ho
    rw [(look_written (older := []) (younger := []) e rfl hat).2.kernel] at hk
    obtain ⟨k', hk', hk⟩ := bind_some hk
    cases hk
    rw [hk']
    cases k' <;> first | rfl | exact hs.1.elim
  | pre p' t =>
    obtain ⟨rfl, ht⟩ := ho
    rw [(look_written (older := []) (younger := []) e rfl hat).2.kernel] at hk
    obtain ⟨k', hk', hk⟩ := bind_some hk
    cases hk
    rw [hk']
    cases k' <;> first | rfl | exact (ht hs.2.1).elim
  | _ => exact ho.elim

/-- **C47, sums.** The sum of two processes is called stationary if and only if both processes and both kernels between them are. -/
theorem C47_sum {ord : List MId} (e : ops = before ++ .add p q ord :: after) (hr : r = (runOps before {}).gps.length)
    (hat : Attached (runOps (before ++ [.add p q ord]) {}) m r) :
    StationaryIn (runOps ops {}) leaf m r ↔ ∃ k1 k2 k12 k21, kernelAt (runOps ops {}) m p p = some k1 ∧ kernelAt (runOps ops {}) m q q = some k2 ∧
      kernelAt (runOps ops {}) m p q = some k12 ∧ kernelAt (runOps ops {}) m q p = some k21 ∧
      k1.Stationary leaf ∧ k2.Stationary leaf ∧ k12.Stationary leaf ∧ k21.Stationary leaf := by
  subst hr
  unfold StationaryIn
  rw [(look_written (older := []) (younger := []) e rfl hat).2.kernel]
  constructor
  · rintro ⟨k, hk, hs⟩
    obtain ⟨k1, h1, hk⟩ := bind_some hk
    obtain ⟨k2, h2, hk⟩ := bind_some hk
    obtain ⟨k12, h12, hk⟩ := bind_some hk
    obtain ⟨k21, h21, hk⟩ := bind_some hk
    cases hk
    rw [kadd_stationary, kadd_stationary, kadd_stationary] at hs
    exact ⟨k1, k2, k12, k21, h1, h2, h12, h21, hs.1.1.1, hs.1.1.2, hs.1.2, hs.2⟩
  · rintro ⟨k1, k2, k12, k21, h1, h2, h12, h21, s1, s2, s12, s21⟩
    refine ⟨kadd (kadd (kadd k1 k2) k12) k21, ?_, ?_⟩
    · simp only [defKernel, h1, h2, h12, h21]; rfl
    · rw [kadd_stationary, kadd_stationary, kadd_stationary]
      exact ⟨⟨⟨s1, s2⟩, s12⟩, s21⟩

/-- **C47, posteriors.** No process of the prior is called stationary in a posterior, unless there were no observations. -/
theorem C47_posterior {obs : Obs} {m' : MId} (g : Gives ops before m obs m') (hp : Attached (runOps before {}) m p)
    (h : StationaryIn (runOps ops {}) leaf m' p) : ∃ q x noise y, obs = .exact q x noise y ∧ numElements x = 0 := by
  obtain ⟨k, hk, hs⟩ := h
  rw [g.kernelAt_eq hp hp] at hk
  cases obs with
  | exact q x noise y =>
    by_cases hx : numElements x = 0
    · exact ⟨q, x, noise, y, rfl, hx⟩
    · simp only [obsKernel, hx, if_false] at hk
      obtain ⟨_, _, hk⟩ := bind_some hk
      obtain ⟨_, _, hk⟩ := bind_some hk
      obtain ⟨_, _, hk⟩ := bind_some hk
      obtain ⟨_, _, hk⟩ := bind_some hk
      cases hk
      exact hs.elim
  | pseudo pu q o =>
    simp only [obsKernel] at hk
    obtain ⟨_, _, hk⟩ := bind_some hk
    obtain ⟨_, _, hk⟩ := bind_some hk
    obtain ⟨_, _, hk⟩ := bind_some hk
    obtain ⟨_, _, hk⟩ := bind_some hk
    obtain ⟨_, _, hk⟩ := bind_some hk
    split at hk
    · obtain ⟨_, _, hk⟩ := bind_some hk
      cases hk
      exact hs.elim
    · cases hk

end

/-! ## Example -/

/-- All kernels that do not change when both inputs are moved. -/
def invariant (k : Pt → Pt → ℝ) : Prop :=
  ∀ c x y : Pt, x.length = c.length → y.length = c.length → k (translate c x) (translate c y) = k x y

theorem invariant_truthful : Truthful invariant := fun _ h => h

/-- The squared distance. -/
noncomputable def distance (x y : Pt) : ℝ := ((List.zipWith (· - ·) x y).map (· ^ 2)).sum

theorem distance_invariant (g : ℝ → ℝ) : invariant fun x y => g (distance x y) := by
  intro c x y hx hy
  show g _ = g _
  unfold distance
  congr 3
  refine List.ext_getElem (by simp [translate, hx, hy]) fun i h1 h2 => ?_
  simp [translate]

/-- Two independent GPs with exponentiated quadratic kernels, the first one stretched, and the sum with the second one. -/
noncomputable def smooth : List Op :=
  [.gp .zero (.prim fun x y => Real.exp (-(distance x y) / 2)) none none,
   .gp (.fn (.const 2)) (.scale 3 (.prim fun x y => Real.exp (-(distance x y)))) (some 0) none,
   .pre 0 (.stretch (.vec [2, 5])),
   .add 2 1 [0],
   .diff 3 0]

theorem smooth_stationary : StationaryIn (runOps smooth {}) invariant 0 3 := by
  refine (C47_sum (r := 3) (before := smooth.take 3) (after := [.diff 3 0]) rfl rfl (attached_iff.2 rfl)).2 ⟨_, _, _, _, rfl, rfl, rfl, rfl, ?_, ?_, ?_, ?_⟩
  · exact ⟨rfl, trivial, distance_invariant fun d => Real.exp (-d / 2)⟩
  · exact distance_invariant fun d => Real.exp (-d)
  · trivial
  · trivial

/-- The kernel of the sum at two features returns, and the same after moving the inputs by `(7, 8)`. -/
example : ∃ A B, KernelCall (runOps smooth {}) 0 3 3 (.num [[0, 1]]) (.num [[2, 3], [4, 5]]) A ∧
    KernelCall (runOps smooth {}) 0 3 3 (.num [[0 + 7, 1 + 8]]) (.num [[2 + 7, 3 + 8], [4 + 7, 5 + 8]]) B ∧ B.Eqv A := by
  obtain ⟨A, hA⟩ : ∃ A, KernelCall (runOps smooth {}) 0 3 3 (.num [[0, 1]]) (.num [[2, 3], [4, 5]]) A := by
    refine ⟨_, ⟨_, 5, rfl, rfl⟩⟩
  obtain ⟨B, hB, hE⟩ := C47_stationary (c := [7, 8]) invariant_truthful smooth_stationary (by simp) (by simp) hA
  exact ⟨A, B, hA, hB, hE⟩

/-- `p.stationary` of the sum. -/
example : GPStationary (runOps smooth {}) invariant 3 := ⟨0, rfl, smooth_stationary⟩

/-- The stretched process is called stationary because the process is. -/
example : StationaryIn (runOps smooth {}) invariant 0 2 :=
  (C47_keeps (o := .pre 0 (.stretch (.vec [2, 5]))) (p := 0) (before := smooth.take 2) (after := smooth.drop 3) ⟨rfl, trivial⟩ rfl rfl (attached_iff.2 rfl)).2
    ⟨_, rfl, distance_invariant fun d => Real.exp (-d / 2)⟩

/-- All values of the sum with two features have variance `4`. -/
example (x : Pt) (hx : x.length = 2) : ElwiseCall (runOps smooth {}) 0 3 3 (.num [x]) (.num [x]) [4] := by
  refine C47_variance (x := [0, 0]) invariant_truthful smooth_stationary hx.symm ⟨_, 5, rfl, ?_⟩
  show some [_ + 3 * _] = some [4]
  have h (x : Pt) : distance x x = 0 := by
    unfold distance
    rw [List.zipWith_self]
    simp
  beta_reduce
  rw [h, h]
  norm_num

/-- The derivative is not called stationary. -/
example : ¬ StationaryIn (runOps smooth {}) invariant 0 4 := fun h => by
  have := C47_loses (o := .diff 3 0) (p := 3) (before := smooth.take 4) (after := []) rfl rfl rfl (attached_iff.2 rfl) h
  cases this

/-- After conditioning the sum on a value, it is not called stationary. -/
example : ¬ StationaryIn (runOps (smooth ++ [.condition 0 (.exact 3 (.num [[0, 1]]) ⟨1, 1, fun _ _ => 0⟩ [3])]) {}) invariant 1 3 := fun h => by
  obtain ⟨q, x, n, y, e, hx⟩ := C47_posterior (before := smooth) (m := 0) (obs := .exact 3 (.num [[0, 1]]) ⟨1, 1, fun _ _ => 0⟩ [3])
    ⟨⟨[], rfl⟩, Nat.lt_of_sub_eq_succ rfl, rfl⟩ (attached_iff.2 rfl) h
  cases e
  cases hx

end Stheno
