import Verif.Construct
import Verif.SmoothCalls
import Verif.Props.Stacks
import Verif.Props.Derive
import Verif.Props.Smooth
import Verif.Props.Condition

/-!
# Arguments of `GP`, and linear relations that hold almost surely
-/

namespace Stheno

open Matrix

/-! ## Means and kernels given as numbers and functions -/

section
variable {ops before : List Op} {m : MId} {r q : PId} {om : Option MId} {on : Option String}

theorem Runs.gp_at {mean : MExpr} {k : KExpr} (hm : Runs ops before (.gp mean k om on) r)
    (hat : Attached (runOps (before ++ [.gp mean k om on]) {}) m r) :
    meanAt (runOps ops {}) m r = some mean ∧ kernelAt (runOps ops {}) m r r = some k := by
  obtain ⟨lk, lm, h1, h2, -⟩ := (hm.of (d := .indep mean k) rfl).look hat
  exact ⟨h2, h1⟩

theorem aInit_named {L L' : AWorld} {mean : MExpr} {k : KExpr} {n : String} (hn : n ≠ "")
    (h : aInit mean k om (some n) L = .ok r L') :
    r = L.gps.length ∧ ∃ m b, L'.gps[r]? = some [m] ∧ L'.ms[m]? = some b ∧ b.namesByGp.lookup r = some n ∧
      b.gpsByName.lookup n = some r := by
  unfold aInit at h
  simp only [Bind.bind, EStateM.bind, aNewGP, aDefine, defMean, defKernel, Option.isSome_some, and_self, if_true, aNameNew, if_neg hn] at h
  cases hr : aResolve om { L with gps := L.gps ++ [[]] } with
  | error e L1 => rw [hr] at h; cases h
  | ok m L1 =>
    have hg : L1.gps = L.gps ++ [[]] := by
      cases om with
      | some m' =>
        simp only [aResolve, Bind.bind, EStateM.bind, aGetMeas] at hr
        cases hm : L.ms[m']? with
        | none => simp only [hm] at hr; cases hr
        | some a => simp only [hm] at hr; cases hr; rfl
      | none =>
        simp only [aResolve, Bind.bind, EStateM.bind, get, getThe, MonadStateOf.get, EStateM.get] at hr
        cases hm : L.default with
        | none => simp only [hm, aNewMeasure] at hr; cases hr; rfl
        | some a => simp only [hm] at hr; cases hr; rfl
    simp only [hr] at h
    cases ha : (L1.push m L.gps.length (.indep mean k)).ms[m]? with
    | none => simp [aSetName, Bind.bind, EStateM.bind, aGetMeas, ha] at h
    | some a =>
      rw [setName_spec ha] at h
      split_ifs at h with hc
      cases h
      refine ⟨rfl, m, a.named L.gps.length n, ?_, ?_, ?_, ?_⟩
      · simp [AWorld.mod, AWorld.push, hg]
      · rw [mod_ms, if_pos rfl, ha]; rfl
      · simp [AMeas.named]
      · simp [AMeas.named]

/-- **C52.** A name given to `GP` is the name of the process, in the measure that the process is in. -/
theorem C52_name {a : MeanArg} {b : KernelArg} {n : String} (hn : n ≠ "")
    (h : (construct a b om (some n)).raises (runOps before {}) = none)
    (hat : m ∈ groups (runOps (before ++ [construct a b om (some n)]) {}) (runOps before {}).gps.length) :
    nameAt (runOps (before ++ [construct a b om (some n)]) {}) m (runOps before {}).gps.length = some n ∧
      gpNamed (runOps (before ++ [construct a b om (some n)]) {}) m n = some (runOps before {}).gps.length := by
  have hi : Inv (runOps before {}) (specOps before {}) := Inv.reach before
  have hi' := (hi.after (construct a b om (some n))).1
  rw [hi.raises] at h
  have e : runOps (before ++ [construct a b om (some n)]) {} = (construct a b om (some n)).after (runOps before {}) := by
    rw [runOps_append]; rfl
  have key : ∀ L, (construct a b om (some n)).spec L =
      match aInit a.resolve b.resolve om (some n) L with
      | .ok _ L' => .ok () L'
      | .error e L' => .error e L' := by
    intro L
    simp only [construct, Op.spec, Bind.bind, EStateM.bind]
    cases aInit a.resolve b.resolve om (some n) L <;> rfl
  unfold Op.specAfter at hi'
  rw [key] at h hi'
  rw [e] at hat ⊢
  have el : (runOps before {}).gps.length = (specOps before {}).gps.length := by rw [hi.rel.gps]
  rw [el] at hat ⊢
  cases hs : aInit a.resolve b.resolve om (some n) (specOps before {}) with
  | error e L' => rw [hs] at h; cases h
  | ok r L' =>
    rw [hs] at hi'
    obtain ⟨rfl, m', c, g1, g2, g3, g4⟩ := aInit_named hn hs
    have : m = m' := by
      unfold groups at hat
      rw [hi'.rel.gps] at hat
      simpa [g1] using hat
    subst this
    exact ⟨by rw [hi'.nameAt g2, g3], by rw [hi'.gpNamed g2, g4]⟩

example : nameAt (runOps ([] ++ [construct (.num 1) (.num 2) none (some "f")]) {}) 0 0 = some "f" :=
  (C52_name (before := []) (a := .num 1) (b := .num 2) (by decide) rfl (List.mem_singleton.2 rfl)).1

/-- **C52.** In all programs, a number given as the mean of a process is its mean at all inputs; a function is its mean. -/
theorem C52_mean {a : MeanArg} {b : KernelArg} (hm : Runs ops before (construct a b om on) r)
    (hat : Attached (runOps (before ++ [construct a b om on]) {}) m r) (xs : List Pt) :
    (∀ c, a = .num c → MeanCall (runOps ops {}) m r (.num xs) (xs.map fun _ => c)) ∧
    ∀ f, a = .fn f → MeanCall (runOps ops {}) m r (.num xs) (xs.map f) := by
  have h := (hm.gp_at hat).1
  constructor
  · rintro c rfl
    by_cases hc : c = 0
    · refine ⟨_, 1, h, ?_⟩
      simp only [MeanArg.resolve, if_pos hc]
      show some (List.replicate xs.length (0 : ℝ)) = _
      rw [hc, List.map_const']
    · refine ⟨_, 2, h, ?_⟩
      simp only [MeanArg.resolve, if_neg hc]
      show some ((List.replicate xs.length (1 : ℝ)).map (c * ·)) = _
      rw [List.map_replicate, mul_one, List.map_const']
  · rintro f rfl
    refine ⟨_, 2, h, ?_⟩
    show zipCol (· * ·) (xs.map f) (List.replicate xs.length (1 : ℝ)) = _
    rw [zipCol, if_pos (by simp)]
    congr 1
    rw [← List.map_const' , List.zipWith_map]
    simp

/-- **C52.** In all programs, a number given as the kernel of a process is its covariance at all pairs of inputs; for a function `f`, the covariance at
`x` and `y` is `f(x) f(y)`. -/
theorem C52_kernel {a : MeanArg} {b : KernelArg} (hm : Runs ops before (construct a b om on) r)
    (hat : Attached (runOps (before ++ [construct a b om on]) {}) m r) (xs ys : List Pt) :
    (∀ c, b = .num c → ∃ A, KernelCall (runOps ops {}) m r r (.num xs) (.num ys) A ∧ A.r = xs.length ∧ A.c = ys.length ∧
      ∀ i < xs.length, ∀ j < ys.length, A.e i j = c) ∧
    ∀ f, b = .fn f → ∃ A, KernelCall (runOps ops {}) m r r (.num xs) (.num ys) A ∧ A.r = xs.length ∧ A.c = ys.length ∧
      ∀ i < xs.length, ∀ j < ys.length, A.e i j = f (xs.getD i []) * f (ys.getD j []) := by
  have h := (hm.gp_at hat).2
  constructor
  · rintro c rfl
    by_cases hc : c = 0
    · refine ⟨⟨xs.length, ys.length, fun _ _ => 0⟩, ⟨_, 1, h, ?_⟩, ?_⟩
      · simp only [KernelArg.resolve, if_pos hc]; rfl
      · exact ⟨rfl, rfl, fun _ _ _ _ => hc.symm⟩
    · refine ⟨Mat.smul c ⟨(List.replicate xs.length (1 : ℝ)).length, (List.replicate ys.length (1 : ℝ)).length,
          fun i j => (List.replicate xs.length (1 : ℝ)).getD i 0 * (List.replicate ys.length (1 : ℝ)).getD j 0⟩, ⟨_, 2, h, ?_⟩, ?_⟩
      · simp only [KernelArg.resolve, if_neg hc]; rfl
      · refine ⟨by simp [Mat.smul], by simp [Mat.smul], fun i hi j hj => ?_⟩
        simp [Mat.smul, hi, hj]
  · rintro f rfl
    refine ⟨⟨xs.length, ys.length, fun i j => ((xs.map f).getD i 0 * (ys.map f).getD j 0) *
        ((List.replicate xs.length (1 : ℝ)).getD i 0 * (List.replicate ys.length (1 : ℝ)).getD j 0)⟩, ⟨_, 2, h, ?_⟩, rfl, rfl, fun i hi j hj => ?_⟩
    · show Mat.mul ⟨(xs.map f).length, (ys.map f).length, fun i j => (xs.map f).getD i 0 * (ys.map f).getD j 0⟩
        ⟨(List.replicate xs.length (1 : ℝ)).length, (List.replicate ys.length (1 : ℝ)).length,
          fun i j => (List.replicate xs.length (1 : ℝ)).getD i 0 * (List.replicate ys.length (1 : ℝ)).getD j 0⟩ = _
      rw [Mat.mul, if_pos (by simp)]
      simp
    · simp [hi, hj]

/-- The function that `p + mean` adds. -/
def MeanArg.toFn : MeanArg → Option Fn
  | .num c => some (.const c)
  | .fn f => some (.user f)
  | .mean _ => none

/-- **C52.** In all programs, `GP(mean, kernel)` and `GP(kernel) + mean` have the same mean and the same kernel, for a mean that is a number or a function and
for all kernels. -/
theorem C52_sum {a : MeanArg} {b : KernelArg} {f : Fn} {b0 b1 : List Op} {r0 r1 : PId} {om0 : Option MId} {on0 : Option String}
    (hf : a.toFn = some f) (hm : Runs ops before (construct a b om on) r)
    (hat : Attached (runOps (before ++ [construct a b om on]) {}) m r) (hm0 : Runs ops b0 (constructK b om0 on0) r0)
    (hat0 : Attached (runOps (b0 ++ [constructK b om0 on0]) {}) m r0) (hm1 : Runs ops b1 (.addFn r0 f) r1)
    (hat1 : Attached (runOps (b1 ++ [.addFn r0 f]) {}) m r1) (hr0 : Attached (runOps b1 {}) m r0) :
    (∀ xs v v', MeanCall (runOps ops {}) m r (.num xs) v → MeanCall (runOps ops {}) m r1 (.num xs) v' → v = v') ∧
    ∀ x y A, KernelCall (runOps ops {}) m r r x y A ↔ KernelCall (runOps ops {}) m r1 r1 x y A := by
  obtain ⟨lk, lm, h1, h2, h3, h4, -⟩ := (hm1.of (d := .addFn r0 f) rfl).look hat1
  have hk : kernelAt (runOps ops {}) m r1 r1 = kernelAt (runOps ops {}) m r r := by
    rw [h1, (hm.gp_at hat).2, ← (hm0.gp_at hat0).2]
    exact h4 r0 (mem_members.2 hr0) r0 (mem_members.2 hr0)
  refine ⟨fun xs v v' hv hv' => ?_, fun x y A => ?_⟩
  · have e : v = xs.map f.val := by
      obtain ⟨e1, e2⟩ := C52_mean hm hat xs
      cases a with
      | num c => cases hf; exact hv.unique (e1 c rfl)
      | fn f => cases hf; exact hv.unique (e2 f rfl)
      | mean a => cases hf
    have hpl : f.Plain := by
      cases a <;> cases hf <;> trivial
    have hm' : meanAt (runOps ops {}) m r1 = some (.add .zero (.fn f)) := by
      rw [h2]
      show (do pure (MExpr.add (← lm r0) (.fn f))) = _
      rw [h3 r0 (mem_members.2 hr0), (hm0.gp_at hat0).1]
      rfl
    obtain ⟨a', n, ha', hv'⟩ := hv'
    rw [hm'] at ha'
    cases ha'
    rw [e, plainM_num (a := .add .zero (.fn f)) ⟨trivial, hpl⟩ hv']
    exact List.map_congr_left fun x _ => (zero_add (f.val x)).symm
  · unfold KernelCall
    rw [hk]

/-- A negative number is taken as a kernel, without an error, and gives a negative variance. -/
theorem C52_negative {a : MeanArg} {c : ℝ} (hc : c < 0) (hm : Runs ops before (construct a (.num c) om on) r)
    (hat : Attached (runOps (before ++ [construct a (.num c) om on]) {}) m r) (x : Pt) :
    ∃ A, KernelCall (runOps ops {}) m r r (.num [x]) (.num [x]) A ∧ A.e 0 0 < 0 := by
  obtain ⟨A, hA, -, -, he⟩ := (C52_kernel hm hat [x] [x]).1 c rfl
  exact ⟨A, hA, by rw [he 0 (by simp) 0 (by simp)]; exact hc⟩

end

theorem psd_fn (f : Pt → ℝ) : IsPSD fun x y => f x * f y where
  symm x y := mul_comm _ _
  nonneg s a := by
    have : ∑ x ∈ s, ∑ y ∈ s, a x * a y * (f x * f y) = (∑ x ∈ s, a x * f x) ^ 2 := by
      rw [sq, Finset.sum_mul_sum]
      exact Finset.sum_congr rfl fun x _ => Finset.sum_congr rfl fun y _ => by ring
    rw [this]
    positivity

theorem psd_const {c : ℝ} (hc : 0 ≤ c) : IsPSD fun _ _ => c := by
  have := psd_fn fun _ => √c
  rwa [show (fun _ _ : Pt => √c * √c) = fun _ _ => c from by funext _ _; exact Real.mul_self_sqrt hc] at this

theorem KernelArg.num_val (c : ℝ) : (KernelArg.num c).resolve.val = fun _ _ => c := by
  funext x y
  simp only [KernelArg.resolve]
  split
  · next h => exact h.symm
  · show c * (1 * 1) = c
    ring

theorem KernelArg.fn_val (f : Pt → ℝ) : (KernelArg.fn f).resolve.val = fun x y => f x * f y := by
  funext x y
  show f x * f y * (1 * 1) = _
  ring

theorem MeanArg.num_val (c : ℝ) : (MeanArg.num c).resolve.val = fun _ => c := by
  funext x
  simp only [MeanArg.resolve]
  split
  · next h => exact h.symm
  · show c * 1 = c
    ring

theorem MeanArg.fn_val (f : Pt → ℝ) : (MeanArg.fn f).resolve.val = f := by
  funext x
  show f x * 1 = f x
  ring

/-- The operations for which random variables are constructed include those with numbers, if they are not negative, and functions as arguments. -/
theorem construct_elem {a : MeanArg} {b : KernelArg} {om : Option MId} {on : Option String} (ha : a.resolve.Plain) (hb : b.resolve.Plain)
    (h : IsPSD b.resolve.val) : (construct a b om on).Elem := ⟨ha, hb, h⟩

theorem MeanArg.num_plain (c : ℝ) : (MeanArg.num c).resolve.Plain := by
  simp only [MeanArg.resolve]
  split <;> trivial

theorem MeanArg.fn_plain (f : Pt → ℝ) : (MeanArg.fn f).resolve.Plain := ⟨trivial, trivial⟩

theorem KernelArg.num_plain (c : ℝ) : (KernelArg.num c).resolve.Plain := by
  simp only [KernelArg.resolve]
  split
  · trivial
  · exact ⟨trivial, trivial⟩

theorem KernelArg.fn_plain (f : Pt → ℝ) : (KernelArg.fn f).resolve.Plain := ⟨⟨trivial, trivial⟩, trivial, trivial⟩

theorem KernelArg.num_psd {c : ℝ} (hc : 0 ≤ c) : IsPSD (KernelArg.num c).resolve.val := by rw [num_val]; exact psd_const hc

theorem KernelArg.fn_psd (f : Pt → ℝ) : IsPSD (KernelArg.fn f).resolve.val := by rw [fn_val]; exact psd_fn f

/-! ## Relations -/

section
variable {V : Type} [AddCommGroup V] [Module ℝ V]

/-- A variable without variance is not correlated with any. -/
theorem SO.Pos.null {S : SO V} (h : S.Pos) {u : V} (h0 : S.C u u = 0) (v : V) : S.C u v = 0 := by
  have := h.cauchy u v
  rw [h0, zero_mul] at this
  exact pow_eq_zero_iff (n := 2) (by decide) |>.1 (le_antisymm this (sq_nonneg _))

/-- Observations say nothing about a variable without variance. -/
theorem Interp.PostLaw.null {I : Interp V} {m : MId} {S' : SO V} {obs : Obs} (h : I.PostLaw m S' obs) (hf : I.FirmObs m obs) {u : V}
    (h0 : ∀ v, (I.S m).C u v = 0) : S'.E u = (I.S m).E u ∧ ∀ v, S'.C u v = 0 := by
  have h0' : ∀ v, (I.S m).C v u = 0 := fun v => by rw [(I.S m).symm, h0]
  cases obs with
  | exact p x noise y =>
    rcases h with ⟨_, rfl⟩ | ⟨_, zs, hz, h⟩
    · exact ⟨rfl, h0⟩
    · obtain ⟨hp, hy⟩ := hf zs hz
      refine ⟨?_, fun v => ?_⟩
      · rw [h.E hp hy]; simp [h0']
      · rw [h.C hp, h0]; simp [quadSum, h0']
  | pseudo pu p o =>
    obtain ⟨zs, xs, hz, hx, h⟩ := h
    obtain ⟨hp, hy⟩ := hf zs xs hz hx
    refine ⟨?_, fun v => ?_⟩
    · rw [h.E hp hy]; simp [h0']
    · rw [h.C hp, h0]; simp [quadSum, h0']

end

section
variable {G : Dom} {ops before : List Op} {m m' : MId} {obs : Obs} {n : ℕ} {a : Fin n → ℝ} {q : Fin n → PId} {x : Fin n → Pt}

/-- The variable `Σ a_s q_s(x_s)`. -/
noncomputable def combo (ops : List Op) (m : MId) (a : Fin n → ℝ) (q : Fin n → PId) (x : Fin n → Pt) : RV :=
  ∑ s, a s • pointOf ((reading ops).F m (q s)) (x s)

theorem Regular.combo_E (h : Regular G ops) (hq : ∀ s, Attached (runOps ops {}) m (q s) ∧ G (q s) (x s)) {μ : Fin n → ℝ}
    (hμ : ∀ s, MeanCall (runOps ops {}) m (q s) (.num [x s]) [μ s]) : ((reading ops).S m).E (combo ops m a q x) = ∑ s, a s * μ s := by
  simp only [combo, map_sum, map_smul, smul_eq_mul]
  refine Finset.sum_congr rfl fun s _ => ?_
  have := h.mean_eq (hq s).1 (.one (hq s).2) (hμ s) (h.point (hq s).1 (hq s).2)
  simp only [List.map_cons, List.map_nil, List.cons.injEq, and_true] at this
  rw [this]

theorem Regular.entry (h : Regular G ops) {p j : PId} {x y : Pt} (hp : Attached (runOps ops {}) m p) (hx : G p x) (hj : Attached (runOps ops {}) m j)
    (hy : G j y) {A : Mat} (hA : KernelCall (runOps ops {}) m p j (.num [x]) (.num [y]) A) :
    A.e 0 0 = ((reading ops).S m).C (pointOf ((reading ops).F m p) x) (pointOf ((reading ops).F m j) y) :=
  (h.kernel_eq hp hj (.one hx) (.one hy) hA (h.point hp hx) (h.point hj hy)).e 0 Nat.one_pos 0 Nat.one_pos

theorem Regular.combo_C (h : Regular G ops) (hq : ∀ s, Attached (runOps ops {}) m (q s) ∧ G (q s) (x s)) {j : PId} {y : Pt}
    (hj : Attached (runOps ops {}) m j) (hy : G j y) {B : Fin n → Mat}
    (hB : ∀ s, KernelCall (runOps ops {}) m (q s) j (.num [x s]) (.num [y]) (B s)) :
    ((reading ops).S m).C (combo ops m a q x) (pointOf ((reading ops).F m j) y) = ∑ s, a s * (B s).e 0 0 := by
  simp only [combo, map_sum, map_smul, LinearMap.sum_apply, LinearMap.smul_apply, smul_eq_mul]
  exact Finset.sum_congr rfl fun s _ => by rw [h.entry (hq s).1 (hq s).2 hj hy (hB s)]

theorem Regular.combo_var (h : Regular G ops) (hq : ∀ s, Attached (runOps ops {}) m (q s) ∧ G (q s) (x s)) {A : Fin n → Fin n → Mat}
    (hA : ∀ s t, KernelCall (runOps ops {}) m (q s) (q t) (.num [x s]) (.num [x t]) (A s t)) :
    ((reading ops).S m).C (combo ops m a q x) (combo ops m a q x) = ∑ s, ∑ t, a s * a t * (A s t).e 0 0 := by
  simp only [combo, map_sum, map_smul, LinearMap.sum_apply, LinearMap.smul_apply, smul_eq_mul]
  refine Finset.sum_congr rfl fun s _ => ?_
  rw [Finset.mul_sum]
  refine Finset.sum_congr rfl fun t _ => ?_
  rw [h.entry (hq s).1 (hq s).2 (hq t).1 (hq t).2 (hA s t), ((reading ops).S m).symm]
  ring

/-- **C53.** A linear combination of values of processes without variance has no covariance with any value of any process, in the prior and in all posteriors. -/
theorem C53_uncorrelated (h : Regular G ops) (hq : ∀ s, Attached (runOps ops {}) m (q s) ∧ G (q s) (x s)) {A : Fin n → Fin n → Mat}
    (hA : ∀ s t, KernelCall (runOps ops {}) m (q s) (q t) (.num [x s]) (.num [x t]) (A s t))
    (h0 : ∑ s, ∑ t, a s * a t * (A s t).e 0 0 = 0) {j : PId} {y : Pt} (hj : Attached (runOps ops {}) m j) (hy : G j y) {B : Fin n → Mat}
    (hB : ∀ s, KernelCall (runOps ops {}) m (q s) j (.num [x s]) (.num [y]) (B s)) : ∑ s, a s * (B s).e 0 0 = 0 := by
  rw [← h.combo_C hq hj hy hB]
  exact (h.pos m).null ((h.combo_var hq hA).trans h0) _

/-- Measures that are made from `m` by conditioning any number of times, when all processes in `P` are already there. -/
inductive Descends (ops : List Op) (P : PId → Prop) (m : MId) : MId → Prop
  | refl : Descends ops P m m
  | step {before : List Op} {m1 m2 : MId} {obs : Obs} : Descends ops P m m1 → Gives ops before m1 obs m2 →
      (∀ p, P p → Attached (runOps before {}) m1 p) → Descends ops P m m2

theorem Regular.descends (h : Regular G ops) {P : PId → Prop} (hd : Descends ops P m m') (hP : ∀ p, P p → Attached (runOps ops {}) m p) {u : RV}
    (h0 : ∀ v, ((reading ops).S m).C u v = 0) : ((reading ops).S m').E u = ((reading ops).S m).E u ∧ (∀ v, ((reading ops).S m').C u v = 0) ∧
      ∀ p, P p → Attached (runOps ops {}) m' p ∧ (reading ops).F m' p = (reading ops).F m p := by
  induction hd with
  | refl => exact ⟨rfl, h0, fun p hp => ⟨hP p hp, rfl⟩⟩
  | @step before m1 m2 obs _ g hb ih =>
    obtain ⟨e1, e2, e3⟩ := ih
    obtain ⟨after, e⟩ := g.split
    obtain ⟨hF, hl⟩ := h.reads.post _ _ _ after e g.has
    have hf := h.firm _ _ _ after e g.has
    obtain ⟨f1, f2⟩ := hl.null hf e2
    rw [← g.id] at hF f1 f2
    refine ⟨f1.trans e1, f2, fun p hp => ⟨?_, (hF p (mem_members.2 (hb p hp))).trans (e3 p hp).2⟩⟩
    have := attached_append after (attached_condition (obs := obs) (hb p hp))
    rw [List.append_assoc, List.singleton_append, ← e, ← g.id] at this
    exact this

/-- **C53.** A linear combination of values of processes without variance is a constant, and stays that constant in all measures that are made by conditioning:
whatever is observed, wherever, and with whichever method, its mean is the same and its covariances with everything are zero. -/
theorem C53_kept (h : Regular G ops) (hd : Descends ops (fun p => ∃ s, p = q s) m m')
    (hq : ∀ s, Attached (runOps ops {}) m (q s) ∧ G (q s) (x s)) {μ : Fin n → ℝ} {A : Fin n → Fin n → Mat}
    (hμ : ∀ s, MeanCall (runOps ops {}) m (q s) (.num [x s]) [μ s])
    (hA : ∀ s t, KernelCall (runOps ops {}) m (q s) (q t) (.num [x s]) (.num [x t]) (A s t))
    (h0 : ∑ s, ∑ t, a s * a t * (A s t).e 0 0 = 0) :
    (∀ μ' : Fin n → ℝ, (∀ s, MeanCall (runOps ops {}) m' (q s) (.num [x s]) [μ' s]) → ∑ s, a s * μ' s = ∑ s, a s * μ s) ∧
    ∀ (j : PId) (y : Pt) (B : Fin n → Mat), Attached (runOps ops {}) m' j → G j y →
      (∀ s, KernelCall (runOps ops {}) m' (q s) j (.num [x s]) (.num [y]) (B s)) → ∑ s, a s * (B s).e 0 0 = 0 := by
  obtain ⟨e1, e2, e3⟩ := h.descends hd (by rintro _ ⟨s, rfl⟩; exact (hq s).1) (u := combo ops m a q x)
    ((h.pos m).null ((h.combo_var hq hA).trans h0))
  have hc : combo ops m' a q x = combo ops m a q x :=
    Finset.sum_congr rfl fun s _ => by rw [(e3 (q s) ⟨s, rfl⟩).2]
  have hq' : ∀ s, Attached (runOps ops {}) m' (q s) ∧ G (q s) (x s) := fun s => ⟨(e3 (q s) ⟨s, rfl⟩).1, (hq s).2⟩
  refine ⟨fun μ' hμ' => ?_, fun j y B hj hy hB => ?_⟩
  · rw [← h.combo_E hq' hμ', ← h.combo_E hq hμ, hc, e1]
  · rw [← h.combo_C hq' hj hy hB, hc, e2]

/-- **C53.** The same for a new GP, in all measures it is in, in terms of the mean and the kernel that it was made with. -/
theorem C53_gp {mean : MExpr} {k : KExpr} {om : Option MId} {on : Option String} {r : PId} (h : Regular G ops)
    (hm : Runs ops before (.gp mean k om on) r) (hr : Attached (runOps ops {}) m r) (hx : ∀ s, G r (x s))
    (h0 : ∑ s, ∑ t, a s * a t * k.val (x s) (x t) = 0) :
    (∀ μ : Fin n → ℝ, (∀ s, MeanCall (runOps ops {}) m r (.num [x s]) [μ s]) → ∑ s, a s * μ s = ∑ s, a s * mean.val (x s)) ∧
    ∀ (j : PId) (y : Pt) (B : Fin n → Mat), Attached (runOps ops {}) m j → G j y →
      (∀ s, KernelCall (runOps ops {}) m r j (.num [x s]) (.num [y]) (B s)) → ∑ s, a s * (B s).e 0 0 = 0 := by
  obtain ⟨b, hb, hrb⟩ := (Inv.reach ops).attached.1 hr
  obtain ⟨m0, a0, es, d0, es', l1, l2, ha0, hdd, hFr, _⟩ := h.reads.source m b hb r hrb
  have hM := hm.of (d := .indep mean k) rfl
  cases hM.defs_eq ha0 hdd
  obtain ⟨after, e⟩ := hm.split
  have hel : (Op.gp mean k om on).Elem := h.elem _ (by rw [e]; simp)
  have hF := (canon_indep (elem_reach h.elem) ha0 hdd).1
  have hv : ∀ s, pointOf ((reading ops).F m r) (x s) = rv m0 r mean.val k.val (x s) := fun s => by
    rw [show (reading ops).F m r = (reading ops).F m0 r from hFr]
    unfold pointOf
    rw [hF]; rfl
  set u := combo ops m a (fun _ => r) x with hu
  have hu' : u = ∑ s, a s • rv m0 r mean.val k.val (x s) := Finset.sum_congr rfl fun s _ => by rw [hv]
  have hE : so0.E u = ∑ s, a s * mean.val (x s) := by
    rw [hu']
    simp only [map_sum, map_smul, smul_eq_mul, so0_rv_E]
  have hC : so0.C u u = 0 := by
    rw [hu', ← h0]
    simp only [map_sum, map_smul, LinearMap.sum_apply, LinearMap.smul_apply, smul_eq_mul, so0_rv_C _ _ _ hel.2.2]
    rw [Finset.sum_comm]
    refine Finset.sum_congr rfl fun s _ => ?_
    rw [Finset.mul_sum]
    exact Finset.sum_congr rfl fun t _ => by rw [hel.2.2.symm]; ring
  have h2 : u.2 = 0 := by
    rw [so0_C] at hC
    exact inner_self_eq_zero.1 hC
  have h1 : u = (∑ s, a s * mean.val (x s)) • rvOne := by
    refine Prod.ext ?_ ?_
    · rw [← so0_E, hE]; simp [rvOne]
    · rw [h2]; simp [rvOne]
  have one := canon_one (L := specOps ops {}) (elem_reach h.elem) m
  have hq : ∀ s : Fin n, Attached (runOps ops {}) m ((fun _ => r) s) ∧ G ((fun _ => r) s) (x s) := fun s => ⟨hr, hx s⟩
  refine ⟨fun μ hμ => ?_, fun j y B hj hy hB => ?_⟩
  · rw [← h.combo_E hq hμ, ← hu, h1, map_smul, smul_eq_mul]
    have : ((reading ops).S m).E rvOne = 1 := one.1
    rw [this, mul_one]
  · rw [← h.combo_C hq hj hy hB, ← hu, h1, map_smul, LinearMap.smul_apply]
    have : ((reading ops).S m).C rvOne _ = 0 := one.2 (pointOf ((reading ops).F m j) y)
    rw [this, smul_zero]

/-- **C53.** `GP(c)` is a random constant: in all measures, whatever was observed, its mean is the same at all inputs, and so is its covariance with any
process at any input. -/
theorem C53_constant {c : ℝ} {om : Option MId} {on : Option String} {r : PId} {e : ℝ} (h : Regular G ops)
    (hm : Runs ops before (construct (.num e) (.num c) om on) r) (hr : Attached (runOps ops {}) m r) {x y : Pt} (hx : G r x) (hy : G r y) :
    (∀ μ ν, MeanCall (runOps ops {}) m r (.num [x]) [μ] → MeanCall (runOps ops {}) m r (.num [y]) [ν] → μ = ν) ∧
    ∀ (j : PId) (z : Pt) (A B : Mat), Attached (runOps ops {}) m j → G j z → KernelCall (runOps ops {}) m r j (.num [x]) (.num [z]) A →
      KernelCall (runOps ops {}) m r j (.num [y]) (.num [z]) B → A.e 0 0 = B.e 0 0 := by
  obtain ⟨h1, h2⟩ := C53_gp (n := 2) (a := ![1, -1]) (x := ![x, y]) h hm hr (fun s => by fin_cases s; exacts [hx, hy])
    (by rw [KernelArg.num_val]; simp [Fin.sum_univ_two])
  constructor
  · intro μ ν hμ hν
    have := h1 ![μ, ν] (fun s => by fin_cases s; exacts [hμ, hν])
    rw [MeanArg.num_val] at this
    simp [Fin.sum_univ_two] at this
    linarith
  · intro j z A B hj hz hA hB
    have := h2 j z ![A, B] hj hz (fun s => by fin_cases s; exacts [hA, hB])
    simp [Fin.sum_univ_two] at this
    linarith

/-- **C53.** `GP(f)` is a random multiple of `f`: in all measures, whatever was observed, `f(y) p(x)` and `f(x) p(y)` have the same mean and the same covariance
with any process at any input. -/
theorem C53_function {f : Pt → ℝ} {om : Option MId} {on : Option String} {r : PId} (h : Regular G ops)
    (hm : Runs ops before (constructK (.fn f) om on) r) (hr : Attached (runOps ops {}) m r) {x y : Pt} (hx : G r x) (hy : G r y) :
    (∀ μ ν, MeanCall (runOps ops {}) m r (.num [x]) [μ] → MeanCall (runOps ops {}) m r (.num [y]) [ν] → f y * μ = f x * ν) ∧
    ∀ (j : PId) (z : Pt) (A B : Mat), Attached (runOps ops {}) m j → G j z → KernelCall (runOps ops {}) m r j (.num [x]) (.num [z]) A →
      KernelCall (runOps ops {}) m r j (.num [y]) (.num [z]) B → f y * A.e 0 0 = f x * B.e 0 0 := by
  obtain ⟨h1, h2⟩ := C53_gp (n := 2) (a := ![f y, -f x]) (x := ![x, y]) h hm hr (fun s => by fin_cases s; exacts [hx, hy])
    (by rw [KernelArg.fn_val]; simp [Fin.sum_univ_two]; ring)
  constructor
  · intro μ ν hμ hν
    have := h1 ![μ, ν] (fun s => by fin_cases s; exacts [hμ, hν])
    simp [Fin.sum_univ_two, MeanArg.resolve, MExpr.val] at this
    linarith
  · intro j z A B hj hz hA hB
    have := h2 j z ![A, B] hj hz (fun s => by fin_cases s; exacts [hA, hB])
    simp [Fin.sum_univ_two] at this
    linarith

end

/-! ## An example -/

/-- A random line: `p = GP(2)`, `q = GP(lambda x: sum(x))`, `p + q`, and a posterior given two values of `p + q`. -/
noncomputable def randomLine : List Op :=
  [constructK (.num 2) none none] ++ [constructK (.fn List.sum) (some 0) none] ++ [.add 0 1 [0]] ++
    [.condition 0 (.exact 2 (.num [[0], [1]]) (eye 2) [1, 2])]

theorem randomLine_solid : Solid (fun _ _ => True) randomLine := by
  have s0 : Solid (fun _ _ => True) [constructK (.num 2) none none] := by
    refine C46_extend (o := constructK (.num 2) none none) .nil ⟨trivial, KernelArg.num_plain 2, KernelArg.num_psd (by norm_num)⟩
      (fun _ _ h => by cases h) (fun m e he _ => ?_) fun _ _ _ h => by cases h
    simp only [constructK, construct, Op.written, List.mem_singleton] at he
    subst he
    exact ⟨trivial, KernelArg.num_plain 2⟩
  have s1 := C46_extend (o := constructK (.fn List.sum) (some 0) none) s0 ⟨trivial, KernelArg.fn_plain _, KernelArg.fn_psd _⟩
      (fun _ _ h => by cases h) (fun m e he _ => by
    simp only [constructK, construct, Op.written, List.mem_singleton] at he
    subst he
    exact ⟨trivial, KernelArg.fn_plain _⟩) fun _ _ _ h => by cases h
  have s2 := C46_extend (o := .add 0 1 [0]) s1 trivial (fun _ _ h => by cases h) (fun m e he _ => by
    simp only [Op.written, List.mem_singleton] at he
    subst he
    exact ⟨fun x hx => hx, fun x hx => hx⟩) fun _ _ _ h => by cases h
  exact C46_condition (m := 0) (p := 2) (xs := [[0], [1]]) (noise := eye 2) (y := [1, 2]) s2 (attached_iff.2 (by decide +kernel))
    (by simp [Rows]) rfl rfl rfl (eye_posDef _ _)

/-- `GP(2)` and `GP(lambda x: sum(x))` have the means and kernels one expects. -/
example (xs ys : List Pt) : MeanCall (runOps randomLine {}) 0 0 (.num xs) (xs.map fun _ => 0) ∧
    (∃ A, KernelCall (runOps randomLine {}) 0 0 0 (.num xs) (.num ys) A ∧ A.r = xs.length ∧ A.c = ys.length ∧
      ∀ i < xs.length, ∀ j < ys.length, A.e i j = 2) ∧
    ∃ A, KernelCall (runOps randomLine {}) 0 1 1 (.num xs) (.num ys) A ∧ A.r = xs.length ∧ A.c = ys.length ∧
      ∀ i < xs.length, ∀ j < ys.length, A.e i j = (xs.getD i []).sum * (ys.getD j []).sum := by
  have r0 : Runs randomLine [] (construct (.mean .zero) (.num 2) none none) 0 := ⟨⟨_, rfl⟩, rfl, 0, attached_iff.2 (by decide +kernel)⟩
  have r1 : Runs randomLine (randomLine.take 1) (construct (.mean .zero) (.fn List.sum) (some 0) none) 1 :=
    ⟨⟨_, rfl⟩, rfl, 0, attached_iff.2 (by decide +kernel)⟩
  refine ⟨⟨_, 1, (r0.gp_at (attached_iff.2 (by decide +kernel))).1, ?_⟩, (C52_kernel r0 (attached_iff.2 (by decide +kernel)) xs ys).1 2 rfl,
    (C52_kernel r1 (attached_iff.2 (by decide +kernel)) xs ys).2 _ rfl⟩
  show some (List.replicate xs.length (0 : ℝ)) = _
  rw [List.map_const']

/-- A process with a number as the mean and one with a function. -/
example (f : Pt → ℝ) (xs : List Pt) :
    MeanCall (runOps [construct (.num 3) (.num 1) none none] {}) 0 0 (.num xs) (xs.map fun _ => 3) ∧
    MeanCall (runOps [construct (.fn f) (.num 1) none none] {}) 0 0 (.num xs) (xs.map f) :=
  ⟨(C52_mean (before := []) ⟨⟨[], rfl⟩, rfl, 0, attached_iff.2 (by decide +kernel)⟩ (attached_iff.2 (by decide +kernel)) xs).1 3 rfl,
    (C52_mean (before := []) ⟨⟨[], rfl⟩, rfl, 0, attached_iff.2 rfl⟩ (attached_iff.2 rfl) xs).2 f rfl⟩

/-- `GP(-1)` is made without an error, and its variance is negative. -/
example (x : Pt) : ∃ A, KernelCall (runOps [constructK (.num (-1)) none none] {}) 0 0 0 (.num [x]) (.num [x]) A ∧ A.e 0 0 < 0 :=
  C52_negative (before := []) (a := .mean .zero) (c := -1) (by norm_num) ⟨⟨[], rfl⟩, rfl, 0, attached_iff.2 (by decide +kernel)⟩
    (attached_iff.2 (by decide +kernel)) x

/-- In the posterior of `randomLine`, the process `1` at `2` is twice the process at `1`, and their covariances with the sum are in the same relation. -/
example {μ ν : ℝ} {A B : Mat} {z : Pt} (hμ : MeanCall (runOps randomLine {}) 1 1 (.num [[1]]) [μ]) (hν : MeanCall (runOps randomLine {}) 1 1 (.num [[2]]) [ν])
    (hA : KernelCall (runOps randomLine {}) 1 1 2 (.num [[1]]) (.num [z]) A) (hB : KernelCall (runOps randomLine {}) 1 1 2 (.num [[2]]) (.num [z]) B) :
    2 * μ = ν ∧ 2 * A.e 0 0 = B.e 0 0 := by
  have r1 : Runs randomLine (randomLine.take 1) (constructK (.fn List.sum) (some 0) none) 1 :=
    ⟨⟨_, rfl⟩, rfl, 0, attached_iff.2 (by decide +kernel)⟩
  obtain ⟨h1, h2⟩ := C53_function (m := 1) (x := [1]) (y := [2]) randomLine_solid.regular r1 (attached_iff.2 (by decide +kernel)) trivial trivial
  have e1 := h1 μ ν hμ hν
  have e2 := h2 2 z A B (attached_iff.2 (by decide +kernel)) trivial hA hB
  simp at e1 e2
  exact ⟨e1, e2⟩

/-- The process `0` is constant in the posterior: its mean at all inputs is what it is at `0`. -/
example : ∃ μ, ∀ x, MeanCall (runOps randomLine {}) 1 0 (.num [x]) [μ] := by
  have r0 : Runs randomLine [] (constructK (.num 2) none none) 0 := ⟨⟨_, rfl⟩, rfl, 0, attached_iff.2 (by decide +kernel)⟩
  have r0' : Runs randomLine [] (construct (.num 0) (.num 2) none none) 0 := by
    have : construct (.num 0) (.num 2) none none = constructK (.num 2) none none := by simp [construct, constructK, MeanArg.resolve]
    rw [this]; exact r0
  have ret : ∀ x, ∃ μ, MeanCall (runOps randomLine {}) 1 0 (.num [x]) [μ] := fun x => by
    obtain ⟨v, hv, lv⟩ := randomLine_solid.regular.mean (m := 1) (p := 0) (xs := [x]) (attached_iff.2 (by decide +kernel)) (.one trivial)
    obtain ⟨μ, rfl⟩ := List.length_eq_one_iff.1 lv
    exact ⟨μ, hv⟩
  obtain ⟨μ, hμ⟩ := ret [0]
  refine ⟨μ, fun x => ?_⟩
  obtain ⟨ν, hν⟩ := ret x
  rw [(C53_constant (m := 1) (x := [0]) (y := x) randomLine_solid.regular r0' (attached_iff.2 (by decide +kernel)) trivial trivial).1 μ ν hμ hν]
  exact hν

/-- The relation between the values of the process `1` at `1` and `2` in the prior is kept in the posterior. -/
example {μ μ' : Fin 2 → ℝ} {A : Fin 2 → Fin 2 → Mat} (hμ : ∀ s, MeanCall (runOps randomLine {}) 0 1 (.num [![[1], [2]] s]) [μ s])
    (hA : ∀ s t, KernelCall (runOps randomLine {}) 0 1 1 (.num [![[1], [2]] s]) (.num [![[1], [2]] t]) (A s t))
    (hμ' : ∀ s, MeanCall (runOps randomLine {}) 1 1 (.num [![[1], [2]] s]) [μ' s]) :
    ∑ s, ![2, -1] s * μ' s = ∑ s, ![2, -1] s * μ s := by
  have r1 : Runs randomLine (randomLine.take 1) (construct (.mean .zero) (.fn List.sum) (some 0) none) 1 :=
    ⟨⟨_, rfl⟩, rfl, 0, attached_iff.2 (by decide +kernel)⟩
  have hAe : ∀ s t, (A s t).e 0 0 = (![[1], [2]] s : Pt).sum * (![[1], [2]] t : Pt).sum := fun s t => by
    obtain ⟨B, hB, -, -, e⟩ := (C52_kernel (m := 0) r1 (attached_iff.2 (by decide +kernel)) [![[1], [2]] s] [![[1], [2]] t]).2 _ rfl
    rw [(hA s t).unique hB, e 0 (by simp) 0 (by simp)]
    rfl
  have g : Gives randomLine (randomLine.take 3) 0 (.exact 2 (.num [[0], [1]]) (eye 2) [1, 2]) 1 := ⟨⟨[], rfl⟩, (by decide : 0 < 1), rfl⟩
  refine (C53_kept (q := fun _ => 1) randomLine_solid.regular (.step .refl g ?_) (fun s => ⟨attached_iff.2 (by decide +kernel), trivial⟩) hμ hA ?_).1 μ' hμ'
  · rintro _ ⟨_, rfl⟩
    exact attached_iff.2 (by decide +kernel)
  · simp only [hAe, Fin.sum_univ_two]
    simp

/-- `GP(3, 2)` and `GP(2) + 3`. -/
noncomputable def offset : List Op := [construct (.num 3) (.num 2) none none, constructK (.num 2) (some 0) none, .addFn 1 (.const 3)]

/-- Their means and kernels are the same. -/
example : (∀ xs v v', MeanCall (runOps offset {}) 0 0 (.num xs) v → MeanCall (runOps offset {}) 0 2 (.num xs) v' → v = v') ∧
    ∀ x y A, KernelCall (runOps offset {}) 0 0 0 x y A ↔ KernelCall (runOps offset {}) 0 2 2 x y A :=
  C52_sum (before := []) (b0 := offset.take 1) (b1 := offset.take 2) (a := .num 3) (b := .num 2) rfl
    ⟨⟨_, rfl⟩, rfl, 0, attached_iff.2 (by decide +kernel)⟩ (attached_iff.2 (by decide +kernel)) ⟨⟨_, rfl⟩, rfl, 0, attached_iff.2 (by decide +kernel)⟩
    (attached_iff.2 (by decide +kernel)) ⟨⟨_, rfl⟩, rfl, 0, attached_iff.2 (by decide +kernel)⟩ (attached_iff.2 (by decide +kernel))
    (attached_iff.2 (by decide +kernel))

end Stheno
