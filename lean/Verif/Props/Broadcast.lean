import Verif.Broadcast
import Verif.Props.Fdd

/-!
# C66: nothing is broadcast, and checks of sizes only reject
-/

namespace Stheno

section
variable {G : Dom} {bc : Bool} {ops : List Op} {w : World} {m : MId} {p q : PId} {x y : Input} {xs ys : List Pt}

/-- `p(x)` can be made for every process `p` of which cross processes of the program consist. -/
def Sizable (ops : List Op) : Prop :=
  ∀ before o after, ops = before ++ o :: after → ∀ m, ∀ e ∈ o.written (runOps before {}).gps.length m, e.2.Uses (Inferable (runOps ops {}))

/-- **C66.** What the check checks: that `p(x)` can be made for numeric `x`. -/
theorem C66_check (noise : NoiseArg) : Inferable w p ↔ ∃ f, mkFdd w p (.num xs) noise = some f := by
  constructor
  · rintro ⟨k, d, hk, hd⟩
    refine ⟨⟨p, .num xs, noiseAsMatrix noise (xs.length * d)⟩, ?_⟩
    have e : inferSize k (.num xs) = some (xs.length * d) := by
      unfold inferSize
      rw [hd]
      rfl
    unfold mkFdd
    rw [hk]
    show (inferSize k (.num xs)).bind _ = _
    rw [e]
    rfl
  · rintro ⟨f, hf⟩
    obtain ⟨k, hk, hf⟩ := bind_some hf
    obtain ⟨n, hn, -⟩ := bind_some hf
    refine ⟨k, ?_⟩
    unfold inferSize at hn
    obtain ⟨d, hd, hn⟩ := bind_some hn
    cases d with
    | none => cases hn
    | some d => exact ⟨d, hk, hd⟩

/-- **C66.** Without broadcasting, calls that pass the checks return what they return without checks, in all worlds. -/
theorem C66_rejects : (∀ v, MeanCallB false w m p x v → MeanCall w m p x v) ∧ (∀ A, KernelCallB false w m p q x y A → KernelCall w m p q x y A) ∧
    ∀ u, ElwiseCallB false w m p q x y u → ElwiseCall w m p q x y u :=
  ⟨fun _ ⟨a, n, ha, h⟩ => ⟨a, n, ha, (evB_ev n).M _ _ _ h⟩, fun _ ⟨a, n, ha, h⟩ => ⟨a, n, ha, (evB_ev n).K _ _ _ _ h⟩,
    fun _ ⟨a, n, ha, h⟩ => ⟨a, n, ha, (evB_ev n).D _ _ _ _ h⟩⟩

/-- **C66.** If `p(x)` can be made for all processes `p` in cross processes, then calls that return with equal shapes and without checks return the same with checks, with or without
broadcasting. -/
theorem C66_returns (h : Sizable ops) : (∀ v, MeanCall (runOps ops {}) m p x v → MeanCallB bc (runOps ops {}) m p x v) ∧
    (∀ A, KernelCall (runOps ops {}) m p q x y A → KernelCallB bc (runOps ops {}) m p q x y A) ∧
    ∀ u, ElwiseCall (runOps ops {}) m p q x y u → ElwiseCallB bc (runOps ops {}) m p q x y u := by
  obtain ⟨hm, hk⟩ := lookups_use h
  exact ⟨fun _ ⟨a, n, ha, h⟩ => ⟨a, n, ha, (ev_evB hm hk (fun _ h => h) n).M _ (hm _ _ _ ha) _ _ h⟩,
    fun _ ⟨a, n, ha, h⟩ => ⟨a, n, ha, (ev_evB hm hk (fun _ h => h) n).K _ (hk _ _ _ _ ha) _ _ _ h⟩,
    fun _ ⟨a, n, ha, h⟩ => ⟨a, n, ha, (ev_evB hm hk (fun _ h => h) n).D _ (hk _ _ _ _ ha) _ _ _ h⟩⟩

/-- **C66.** Calls with checks and broadcasting have one result. -/
theorem C66_unique : (∀ v v', MeanCallB bc w m p x v → MeanCallB bc w m p x v' → v = v') ∧
    (∀ A A', KernelCallB bc w m p q x y A → KernelCallB bc w m p q x y A' → A = A') ∧
    ∀ u u', ElwiseCallB bc w m p q x y u → ElwiseCallB bc w m p q x y u' → u = u' := by
  refine ⟨?_, ?_, ?_⟩
  · rintro v v' ⟨a, n, ha, h⟩ ⟨a', n', ha', h'⟩
    rw [ha] at ha'
    cases ha'
    have h1 := (evB_le (Nat.le_max_left n n')).M _ _ _ h
    have h2 := (evB_le (Nat.le_max_right n n')).M _ _ _ h'
    rw [h1] at h2
    exact Option.some.inj h2
  · rintro v v' ⟨a, n, ha, h⟩ ⟨a', n', ha', h'⟩
    rw [ha] at ha'
    cases ha'
    have h1 := (evB_le (Nat.le_max_left n n')).K _ _ _ _ h
    have h2 := (evB_le (Nat.le_max_right n n')).K _ _ _ _ h'
    rw [h1] at h2
    exact Option.some.inj h2
  · rintro v v' ⟨a, n, ha, h⟩ ⟨a', n', ha', h'⟩
    rw [ha] at ha'
    cases ha'
    have h1 := (evB_le (Nat.le_max_left n n')).D _ _ _ _ h
    have h2 := (evB_le (Nat.le_max_right n n')).D _ _ _ _ h'
    rw [h1] at h2
    exact Option.some.inj h2

/-- **C66.** In regular programs, at inputs at which the processes can be called, calls with checks and broadcasting return exactly what calls without them return: nothing is
broadcast, and no check fails. -/
theorem C66_regular (h : Regular G ops) (hs : Sizable ops) (hp : Attached (runOps ops {}) m p) (hq : Attached (runOps ops {}) m q) (hx : Rows (G p) xs) (hy : Rows (G q) ys) :
    (∃ v, MeanCallB bc (runOps ops {}) m p (.num xs) v) ∧ (∀ v, MeanCallB bc (runOps ops {}) m p (.num xs) v ↔ MeanCall (runOps ops {}) m p (.num xs) v) ∧
    (∃ A, KernelCallB bc (runOps ops {}) m p q (.num xs) (.num ys) A) ∧
    ∀ A, KernelCallB bc (runOps ops {}) m p q (.num xs) (.num ys) A ↔ KernelCall (runOps ops {}) m p q (.num xs) (.num ys) A := by
  obtain ⟨v, hv, -⟩ := h.mean hp hx
  obtain ⟨A, hA, -, -⟩ := h.kernel hp hq hx hy
  have e1 := (C66_returns (bc := bc) (m := m) (p := p) (q := q) (x := .num xs) (y := .num ys) hs).1
  have e2 := (C66_returns (bc := bc) (m := m) (p := p) (q := q) (x := .num xs) (y := .num ys) hs).2.1
  refine ⟨⟨v, e1 v hv⟩, fun v' => ⟨fun hv' => ?_, e1 v'⟩, ⟨A, e2 A hA⟩, fun A' => ⟨fun hA' => ?_, e2 A'⟩⟩
  · rw [(C66_unique (q := q) (y := .num ys)).1 _ _ hv' (e1 v hv)]
    exact hv
  · rw [C66_unique.2.1 _ _ hA' (e2 A hA)]
    exact hA

/-- **C66.** Cross processes of single-output processes can be made of all processes `p` for which at most the last of the observations that led to the measure of `p` was of a
cross process (the hypotheses of C27_total, with the example there). -/
theorem C66_sizable {C : PId → Prop} (h : Definite C ops) (hpr : Proper ops) {m : MId} (hm : gpMeasure (runOps ops {}) p = some m) (hp : ¬ C p)
    (hg : GivenSingle C ops m ∨ ∃ b m0 o, Gives ops b m0 o m ∧ GivenSingle C ops m0) : Inferable (runOps ops {}) p :=
  (C66_check (xs := []) .none).2 ((C27_total h hpr hm hp hg .none).imp fun _ h => h.1)

end

/-! ### Examples -/

theorem trial_sizable : Sizable trial := by
  refine splits (ops := trial) (P := fun before o => ∀ m, ∀ e ∈ o.written (runOps before {}).gps.length m, e.2.Uses (Inferable (runOps trial {})))
    ⟨?_, ?_, ?_, ?_, ?_, ?_, ?_, ?_, ?_, trivial⟩
  all_goals
    intro m e he
    first
      | exact (List.not_mem_nil he).elim
      | have he := List.mem_singleton.1 he
        subst he
        first
          | exact ⟨trivial, trivial⟩
          | trivial
          | (intro p hp
             simp only [List.mem_cons, List.not_mem_nil, or_false] at hp
             rcases hp with rfl | rfl <;> exact ⟨_, 1, rfl, rfl⟩)

/-- In the posterior given two processes at once, the kernel of a sum can be called with checks and broadcasting, and returns what it returns without. -/
example (bc : Bool) (xs ys : List Pt) : (∃ A, KernelCallB bc (runOps trial {}) 3 0 2 (.num xs) (.num ys) A) ∧
    ∀ A, KernelCallB bc (runOps trial {}) 3 0 2 (.num xs) (.num ys) A ↔ KernelCall (runOps trial {}) 3 0 2 (.num xs) (.num ys) A :=
  (C66_regular trial_regular trial_sizable (attached_iff.2 rfl) (attached_iff.2 rfl) (rows_off (by decide)) (rows_off (by decide))).2.2

/-- Two GPs and their cross process; another GP, added to the cross process. -/
noncomputable def widen : List Op :=
  [.gp .zero affine none none,
   .gp .zero affine (some 0) none,
   .cross [0, 1] [0],
   .gp .zero affine (some 0) none,
   .add 2 3 [0]]

theorem widen_sizable : Sizable widen := by
  refine splits (ops := widen) (P := fun before o => ∀ m, ∀ e ∈ o.written (runOps before {}).gps.length m, e.2.Uses (Inferable (runOps widen {})))
    ⟨?_, ?_, ?_, ?_, ?_, trivial⟩
  all_goals
    intro m e he
    have he := List.mem_singleton.1 he
    subst he
    first
      | exact ⟨trivial, trivial⟩
      | trivial
      | (intro p hp
         simp only [List.mem_cons, List.not_mem_nil, or_false] at hp
         rcases hp with rfl | rfl <;> exact ⟨_, 1, rfl, rfl⟩)

theorem evB_add {bc : Bool} {w : World} {n : ℕ} {a b : KExpr} {xs ys : List Pt} {C : Mat}
    (h : (evB bc (Inferable w) (meanAt w) (kernelAt w) n).K (.add a b) (.num xs) (.num ys) = some C) : ∃ A B n', (evB bc (Inferable w) (meanAt w) (kernelAt w) n').K a (.num xs) (.num ys) = some A ∧
      (evB bc (Inferable w) (meanAt w) (kernelAt w) n').K b (.num xs) (.num ys) = some B ∧ A.zipB bc (· + ·) B = some C := by
  cases n with
  | zero => cases h
  | succ n =>
    obtain ⟨A, hA, h⟩ := bind_some h
    obtain ⟨B, hB, h⟩ := bind_some h
    exact ⟨A, B, n, hA, hB, h⟩

/-- At one row, the kernel of the sum returns: the entry of the kernel of the GP is broadcast over the kernel of the cross process. Without broadcasting, it raises. -/
theorem C66_widen_one (x : Pt) : (∃ A, KernelCallB true (runOps widen {}) 0 4 4 (.num [x]) (.num [x]) A ∧ A.r = 2 ∧ A.c = 2 ∧
    A.e 0 0 = 2 * (x.sum * x.sum + 1) ∧ A.e 0 1 = x.sum * x.sum + 1) ∧ ∀ A, ¬ KernelCallB false (runOps widen {}) 0 4 4 (.num [x]) (.num [x]) A := by
  obtain ⟨A, hA, rA, cA, e0, e1⟩ : ∃ A, KernelCall (runOps widen {}) 0 2 2 (.num [x]) (.num [x]) A ∧ A.r = 2 ∧ A.c = 2 ∧ A.e 0 0 = x.sum * x.sum + 1 ∧ A.e 0 1 = 0 :=
    ⟨_, ⟨.mok 0 [0, 1], 4, rfl, by rfl⟩, rfl, rfl, rfl, rfl⟩
  obtain ⟨B, hB, rB, cB, f0⟩ : ∃ B, KernelCall (runOps widen {}) 0 3 3 (.num [x]) (.num [x]) B ∧ B.r = 1 ∧ B.c = 1 ∧ B.e 0 0 = x.sum * x.sum + 1 :=
    ⟨_, ⟨affine, 4, rfl, by rfl⟩, rfl, rfl, rfl⟩
  constructor
  · obtain ⟨a, n, ha, h⟩ := (C66_returns (bc := true) (x := .num [x]) (y := .num [x]) widen_sizable).2.1 _ hA
    obtain ⟨b, n', hb, h'⟩ := (C66_returns (bc := true) (x := .num [x]) (y := .num [x]) widen_sizable).2.1 _ hB
    cases (rfl : kernelAt (runOps widen {}) 0 2 2 = some (.mok 0 [0, 1])).symm.trans ha
    cases (rfl : kernelAt (runOps widen {}) 0 3 3 = some affine).symm.trans hb
    have h1 := (evB_le (Nat.le_max_left n n')).K _ _ _ _ h
    have h2 := (evB_le (Nat.le_max_right n n')).K _ _ _ _ h'
    refine ⟨⟨2, 2, fun i j => A.e (bidx 2 i) (bidx 2 j) + B.e (bidx 1 i) (bidx 1 j)⟩, ⟨.add (.mok 0 [0, 1]) affine, max n n' + 1, rfl, ?_⟩, rfl, rfl, ?_, ?_⟩
    · show (Option.bind _ fun A => Option.bind _ fun B => _) = _
      rw [h1]
      show (Option.bind _ fun B => _) = _
      rw [h2]
      show A.zipB true (· + ·) B = _
      unfold Mat.zipB
      rw [rA, cA, rB, cB]
      rfl
    · show A.e 0 0 + B.e 0 0 = _
      rw [e0, f0]
      ring
    · show A.e 0 1 + B.e 0 0 = _
      rw [e1, f0]
      ring
  · rintro C ⟨k, n, hk, h⟩
    cases (rfl : kernelAt (runOps widen {}) 0 4 4 = some (.add (.mok 0 [0, 1]) affine)).symm.trans hk
    obtain ⟨A', B', n', hA', hB', h⟩ := evB_add h
    cases (C66_rejects (m := 0) (p := 2) (q := 2)).2.1 A' ⟨_, n', rfl, hA'⟩ |>.unique hA
    cases (C66_rejects (m := 0) (p := 3) (q := 3)).2.1 B' ⟨_, n', rfl, hB'⟩ |>.unique hB
    unfold Mat.zipB at h
    rw [rA, cA, rB, cB] at h
    cases h

/-- At two rows, it raises. -/
theorem C66_widen_two (bc : Bool) (x y : Pt) (A : Mat) : ¬ KernelCallB bc (runOps widen {}) 0 4 4 (.num [x, y]) (.num [x, y]) A := by
  obtain ⟨A, hA, rA⟩ : ∃ A, KernelCall (runOps widen {}) 0 2 2 (.num [x, y]) (.num [x, y]) A ∧ A.r = 4 :=
    ⟨_, ⟨.mok 0 [0, 1], 4, rfl, by rfl⟩, rfl⟩
  obtain ⟨B, hB, rB⟩ : ∃ B, KernelCall (runOps widen {}) 0 3 3 (.num [x, y]) (.num [x, y]) B ∧ B.r = 2 :=
    ⟨_, ⟨affine, 4, rfl, by rfl⟩, rfl⟩
  rintro ⟨k, n, hk, h⟩
  cases (rfl : kernelAt (runOps widen {}) 0 4 4 = some (.add (.mok 0 [0, 1]) affine)).symm.trans hk
  obtain ⟨A', B', n', hA', hB', h⟩ := evB_add h
  cases C66_unique.2.1 _ _ (⟨_, n', rfl, hA'⟩ : KernelCallB bc (runOps widen {}) 0 2 2 _ _ A') ((C66_returns widen_sizable).2.1 _ hA)
  cases C66_unique.2.1 _ _ (⟨_, n', rfl, hB'⟩ : KernelCallB bc (runOps widen {}) 0 3 3 _ _ B') ((C66_returns widen_sizable).2.1 _ hB)
  unfold Mat.zipB at h
  rw [rA, rB, if_neg (by simp)] at h
  cases bc with
  | false => cases h
  | true => cases h

/-- The first GP in the posterior of the posterior of `again`, together with itself. -/
noncomputable def twinned : List Op := again ++ [.cross [4, 4] [2]]

/-- Finding: the size of this process cannot be inferred, so the cross process cannot be called at numeric inputs, although it has a mean and a kernel. -/
theorem C66_twinned (bc : Bool) (xs ys : List Pt) : Attached (runOps twinned {}) 2 5 ∧ ¬ Inferable (runOps twinned {}) 4 ∧
    (∀ A, ¬ KernelCallB bc (runOps twinned {}) 2 5 5 (.num xs) (.num ys) A) ∧ ∀ v, ¬ MeanCallB bc (runOps twinned {}) 2 5 (.num xs) v := by
  have hi : ¬ Inferable (runOps twinned {}) 4 := by
    rintro ⟨k, d, hk, hd⟩
    obtain ⟨f, hf⟩ := (C66_check (xs := [[0]]) .none).1 ⟨k, d, hk, hd⟩
    exact Option.some_ne_none _ (hf.symm.trans (rfl : mkFdd (runOps twinned {}) 4 (.num [[0]]) .none = none))
  refine ⟨attached_iff.2 rfl, hi, ?_, ?_⟩
  · rintro A ⟨k, n, hk, h⟩
    cases (rfl : kernelAt (runOps twinned {}) 2 5 5 = some (.mok 2 [4, 4])).symm.trans hk
    cases n with
    | zero => cases h
    | succ n =>
      exact Option.some_ne_none _ (h.symm.trans (if_neg fun hh => hi (hh 4 (by simp))))
  · rintro A ⟨k, n, hk, h⟩
    cases (rfl : meanAt (runOps twinned {}) 2 5 = some (.mom 2 [4, 4])).symm.trans hk
    cases n with
    | zero => cases h
    | succ n =>
      exact Option.some_ne_none _ (h.symm.trans (if_neg fun hh => hi (hh 4 (by simp))))

end Stheno
