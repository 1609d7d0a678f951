import Verif.Sizes
import Verif.Props.Condition
import Verif.Props.Graph
import Verif.Props.Groups

/-!
# Finite-dimensional distributions: C27
-/

namespace Stheno

open Matrix

/-- What the user wrote tells single-output processes (not in `C`) and cross processes of `D p` single-output processes
(in `C`) apart. -/
def Tells (C : PId → Prop) (D : PId → ℕ) (ops : List Op) : Prop :=
  ∀ before o after, ops = before ++ o :: after →
    ∀ m, ∀ e ∈ o.written (runOps before {}).gps.length m, Sorted C e ∧ Counts D e

section
variable {C : PId → Prop} {D : PId → ℕ} {ops : List Op} {p : PId} {m : MId} {x : Input}

theorem Tells.slimM (h : Tells C D ops) {a : MExpr} (hp : ¬ C p) (ha : meanAt (runOps ops {}) m p = some a) : a.Slim C := by
  rw [(lookups_reach ops).1] at ha
  exact specMAux_slim (defs_from _ ops fun b o r e m d hd => (h b o r e m d hd).1) _ _ hp ha

theorem Tells.slimK (h : Tells C D ops) {q : PId} {k : KExpr} (hp : ¬ C p) (hq : ¬ C q)
    (hk : kernelAt (runOps ops {}) m p q = some k) : k.Slim C := by
  rw [(lookups_reach ops).2] at hk
  exact (specKAux_slim (defs_from _ ops fun b o r e m d hd => (h b o r e m d hd).1) _ _).nn hp hq hk

theorem Tells.broadM (h : Tells C D ops) {a : MExpr} (hp : C p) (ha : meanAt (runOps ops {}) m p = some a) :
    a.Broad C (D p) := by
  rw [(lookups_reach ops).1] at ha
  exact (specMAux_broad (defs_from _ ops fun b o r e m d hd => (h b o r e m d hd).1)
    (defs_from _ ops fun b o r e m d hd => (h b o r e m d hd).2) _ _ hp ha).2

theorem Tells.broadK (h : Tells C D ops) {k : KExpr} (hp : C p) (hk : kernelAt (runOps ops {}) m p p = some k) :
    D p ≠ 0 ∧ k.Broad C (D p) := by
  rw [(lookups_reach ops).2] at hk
  exact specKAux_broad (defs_from _ ops fun b o r e m d hd => (h b o r e m d hd).1)
    (defs_from _ ops fun b o r e m d hd => (h b o r e m d hd).2) _ _ hp hk

open Classical in
/-- The number of values of process `p` at an input. -/
noncomputable def outSize (C : PId → Prop) (D : PId → ℕ) (p : PId) (x : Input) : ℕ :=
  if C p then broadSize (D p) x else numElements x

/-- The number of rows of a mean. -/
theorem Tells.mean_size (h : Tells C D ops) {v : List ℝ} (hx : C p → x.Flat C) (hv : MeanCall (runOps ops {}) m p x v) :
    v.length = outSize C D p x := by
  obtain ⟨a, n, ha, hv⟩ := hv
  unfold outSize
  by_cases hp : C p
  · rw [if_pos hp]
    exact (broad_size (fun m p a hp ha => h.slimM hp ha) (fun m p q k hp hq hk => h.slimK hp hq hk) n).2 a
      (h.broadM hp ha) x v (hx hp) hv
  · rw [if_neg hp]
    exact (slim_size (fun m p a hp ha => h.slimM hp ha) n).2 a (h.slimM hp ha) x v hv

/-- The numbers of rows and columns of a variance. -/
theorem Tells.kernel_size (h : Tells C D ops) {A : Mat} {y : Input} (hx : C p → x.Flat C) (hy : C p → y.Flat C)
    (hA : KernelCall (runOps ops {}) m p p x y A) : A.r = outSize C D p x ∧ A.c = outSize C D p y := by
  obtain ⟨k, n, hk, hA⟩ := hA
  unfold outSize
  by_cases hp : C p
  · rw [if_pos hp, if_pos hp]
    exact (broad_size (fun m p a hp ha => h.slimM hp ha) (fun m p q k hp hq hk => h.slimK hp hq hk) n).1 k
      (h.broadK hp hk).2 x y A (hx hp) (hy hp) hA
  · rw [if_neg hp, if_neg hp]
    exact (slim_size (fun m p a hp ha => h.slimM hp ha) n).1 k (h.slimK hp hp hk) x y A hA

/-- The covariance of two single-output processes has one row and one column per element of the inputs. -/
theorem Tells.cov_size (h : Tells C D ops) {A : Mat} {q : PId} {y : Input} (hp : ¬ C p) (hq : ¬ C q)
    (hA : KernelCall (runOps ops {}) m p q x y A) : A.r = numElements x ∧ A.c = numElements y := by
  obtain ⟨k, n, hk, hA⟩ := hA
  exact (slim_size (fun m p a hp ha => h.slimM hp ha) n).1 k (h.slimK hp hq hk) x y A hA

/-- What `infer_size` returns. -/
theorem Tells.infer (h : Tells C D ops) {k : KExpr} {n : ℕ} (hk : kernelAt (runOps ops {}) m p p = some k)
    (hn : inferSize k x = some n) : n = outSize C D p x := by
  unfold outSize
  by_cases hp : C p
  · rw [if_pos hp]
    obtain ⟨h0, hb⟩ := h.broadK hp hk
    exact inferSize_broad (hb.dim h0) hn
  · rw [if_neg hp, ← broadSize_one]
    exact inferSize_broad (h.slimK hp hp hk).dim hn

/-- **C27.** The noise of `p(x)` and `p(x, c)` has as many rows and columns as the mean and the variance of `p` at `x`, in
every measure. -/
theorem C27_size (h : Tells C D ops) (hx : C p → x.Flat C) {noise : NoiseArg}
    (hn : noise = .none ∨ ∃ c, noise = .scalar c) {f : Fdd} (hf : mkFdd (runOps ops {}) p x noise = some f) :
    (∀ v, MeanCall (runOps ops {}) m p x v → f.noise.r = v.length ∧ f.noise.c = v.length) ∧
    ∀ A, KernelCall (runOps ops {}) m p p x x A → f.noise.r = A.r ∧ f.noise.c = A.c := by
  obtain ⟨k, hk, hf⟩ := bind_some hf
  obtain ⟨n, hs, hf⟩ := bind_some hf
  obtain ⟨m0, hm0, hk⟩ := bind_some hk
  cases hf
  have e := h.infer hk hs
  have hsz : (noiseAsMatrix noise n).r = n ∧ (noiseAsMatrix noise n).c = n := by
    rcases hn with rfl | ⟨c, rfl⟩ <;> exact ⟨rfl, rfl⟩
  refine ⟨fun v hv => ?_, fun A hA => ?_⟩
  · rw [h.mean_size hx hv, ← e]; exact hsz
  · obtain ⟨h1, h2⟩ := h.kernel_size hx hx hA
    rw [h1, h2, ← e]; exact hsz

/-- **C27.** For a noise vector or noise matrix given by the user, the noise of `p(x, noise)` is that noise. -/
theorem C27_given {w : World} {f : Fdd} :
    (∀ cs, mkFdd w p x (.vec cs) = some f → f.noise.r = cs.length ∧ f.noise.c = cs.length ∧
      ∀ i j, f.noise.e i j = if i = j then cs.getD i 0 else 0) ∧
    ∀ A, mkFdd w p x (.mat A) = some f → f.noise = A := by
  refine ⟨fun cs hf => ?_, fun A hf => ?_⟩
  all_goals
    obtain ⟨_, _, hf⟩ := bind_some hf
    obtain ⟨_, _, hf⟩ := bind_some hf
    cases hf
  · exact ⟨rfl, rfl, fun _ _ => rfl⟩
  · rfl

/-- Kernels given by the user have a known dimensionality. -/
def Definite (C : PId → Prop) (ops : List Op) : Prop :=
  ∀ before o after, ops = before ++ o :: after →
    ∀ m, ∀ e ∈ o.written (runOps before {}).gps.length m, Known C e

/-- A measure that is not a posterior, or a posterior given observations of single-output processes only. -/
inductive GivenSingle (C : PId → Prop) (ops : List Op) : MId → Prop where
  | prior {m : MId} : (∀ b m0 o, ¬ Gives ops b m0 o m) → GivenSingle C ops m
  | posterior {m m0 : MId} {b o} : Gives ops b m0 o m → ¬ C o.proc → GivenSingle C ops m0 → GivenSingle C ops m

theorem GivenSingle.isOpen (h : GivenSingle C ops m) (hm : HasMeasure (runOps ops {}) m) : Open C (specOps ops {}).ms m := by
  induction h with
  | prior hn =>
    obtain ⟨a, ha⟩ : ∃ a, (specOps ops {}).ms[_]? = some a :=
      ⟨_, List.getElem?_eq_getElem (by rw [← (Inv.reach ops).rel.len]; exact hm)⟩
    refine .prior ha ?_
    cases hu : a.base with
    | none => rfl
    | some u =>
      obtain ⟨before, after, e, hb, hid, _⟩ := base_from ops _ a u ha hu
      exact (hn before u.prior u.obs ⟨⟨after, e⟩, hb, hid⟩).elim
  | posterior g hc _ ih =>
    obtain ⟨a, ha, hb, _⟩ := g.state
    refine .posterior ha hb hc (ih ?_)
    have := ((Inv.reach ops).wf.ms _ a ha).base_lt _ hb
    exact Nat.lt_trans this hm

/-- **C27.** `p(x)` does not raise for single-output processes, if at most the last of the observations that led to the
measure of `p` was of a cross process. -/
theorem C27_total (h : Definite C ops) (hpr : Proper ops) (hm : gpMeasure (runOps ops {}) p = some m) (hp : ¬ C p)
    (hg : GivenSingle C ops m ∨ ∃ b m0 o, Gives ops b m0 o m ∧ GivenSingle C ops m0) (noise : NoiseArg) :
    ∃ f, mkFdd (runOps ops {}) p x noise = some f ∧ f.p = p ∧ f.x = x := by
  have hat : Attached (runOps ops {}) m p := by
    refine ((C32_consistent ops).1 m p).2 ?_
    unfold gpMeasure at hm
    exact List.mem_of_mem_head? hm
  have hms : HasMeasure (runOps ops {}) m := by
    obtain ⟨s, hs, _⟩ := hat
    exact (List.getElem?_eq_some_iff.1 hs).1
  obtain ⟨⟨k, w', hk⟩, _⟩ := C02_total ops hpr m p p hat hat
  have hk' : kernelAt (runOps ops {}) m p p = some k := by unfold kernelAt; rw [hk]
  have hd : dims k = some (some 1) := by
    rw [(lookups_reach ops).2] at hk'
    have hdefs := defs_from _ ops h
    rcases hg with hg | ⟨b, m0, o, g, hg⟩
    · exact (specKAux_open hdefs _ (hg.isOpen hms)).nn hp hp hk'
    · obtain ⟨a, ha, hb, _⟩ := g.state
      have hlt := ((Inv.reach ops).wf.ms _ a ha).base_lt _ hb
      exact specKAux_once hdefs _ ha hb (hg.isOpen (Nat.lt_trans hlt hms)) hp hp hk'
  refine ⟨⟨p, x, noiseAsMatrix noise (broadSize 1 x)⟩, ?_, rfl, rfl⟩
  · have e : gpKernel (runOps ops {}) p = some k := by
      unfold gpKernel; rw [hm]; exact hk'
    unfold mkFdd
    rw [e]
    show (inferSize k x).bind _ = _
    rw [inferSize_some hd x]; rfl

end

/-! ## Examples -/

theorem trial_tells : Tells (fun p => p = 3 ∨ p = 4) (fun _ => 2) trial := by
  refine splits (ops := trial) (P := fun before o => ∀ m, ∀ e ∈ o.written (runOps before {}).gps.length m,
      Sorted (fun p => p = 3 ∨ p = 4) e ∧ Counts (fun _ => 2) e) ⟨?_, ?_, ?_, ?_, ?_, ?_, ?_, ?_, ?_, trivial⟩
  all_goals
    intro m e he
    first
      | exact (List.not_mem_nil he).elim
      | have he := List.mem_singleton.1 he
        subst he
        first
          | exact ⟨⟨fun _ => ⟨trivial, trivial⟩, fun h => (by rcases h with h | h <;> cases h)⟩, trivial⟩
          | exact ⟨⟨fun _ => ⟨by decide, by decide⟩, fun h => (by rcases h with h | h <;> cases h)⟩, trivial⟩
          | exact ⟨⟨fun h => (h (.inl rfl)).elim, fun _ => ⟨by simp, by decide⟩⟩, rfl⟩
          | exact ⟨⟨fun h => (h (.inr rfl)).elim, fun _ => ⟨by simp, by decide⟩⟩, rfl⟩

/-- The cross process of `trial` at three inputs: the noise has six rows, like the mean. -/
example : ∃ f, mkFdd (runOps trial {}) 3 (.num [[0], [1], [2]]) (.scalar 1) = some f ∧ f.noise.r = 6 ∧
    ∀ v, MeanCall (runOps trial {}) 0 3 (.num [[0], [1], [2]]) v → v.length = 6 := by
  refine ⟨_, rfl, rfl, fun v hv => ?_⟩
  exact ((C27_size (x := .num [[0], [1], [2]]) trial_tells (fun _ => trivial) (.inr ⟨1, rfl⟩) (rfl : mkFdd (runOps trial {}) 3 _ (.scalar 1) = some _)).1 v hv).1.symm

/-- Two GPs observed together; the same observation again; the first GP in the posterior of the posterior. -/
noncomputable def again : List Op :=
  [.gp .zero affine none none,
   .gp .zero affine (some 0) none,
   .cross [0, 1] [0],
   .condition 0 (.exact 2 (.tup [.fdd 0 (.num [[0]]), .fdd 1 (.num [[1]])]) (eye 2) [1, 2]),
   .condition 1 (.exact 2 (.tup [.fdd 0 (.num [[0]]), .fdd 1 (.num [[1]])]) (eye 2) [1, 2]),
   .call 1 0,
   .call 2 0]

/-- The first posterior of `again`. -/
noncomputable def once : List Op := again.take 4 ++ [.call 1 0]

/-- After conditioning once, the FDD of the first GP at any input can be made. -/
example (x : Input) (noise : NoiseArg) : ∃ f, mkFdd (runOps once {}) 3 x noise = some f := by
  have hd : Definite (fun p => p = 2) once := by
    refine splits (ops := once) (P := fun before o => ∀ m, ∀ e ∈ o.written (runOps before {}).gps.length m,
        Known (fun p => p = 2) e) ⟨?_, ?_, ?_, ?_, ?_, trivial⟩
    all_goals
      intro m e he
      first
        | exact (List.not_mem_nil he).elim
        | have he := List.mem_singleton.1 he
          subst he
          first
            | exact ⟨fun _ => ⟨trivial, rfl⟩, fun h => by cases h⟩
            | exact ⟨fun h => (h rfl).elim, fun _ => ⟨by simp, by decide⟩⟩
            | exact ⟨fun _ => (by decide : ¬ 0 = 2), fun h => by cases h⟩
  have hp : Proper once := by
    intro before m obs after e
    refine splits (ops := once) (P := fun before o => ∀ m obs, o = .condition m obs →
      obs.noiseOK ∧ ∀ p ∈ obs.refs, Attached (runOps before {}) m p) ⟨?_, ?_, ?_, ?_, ?_, trivial⟩ before _ after e m obs rfl
    all_goals
      intro m obs e
      first
        | (exfalso; cases e; done)
        | cases e
    refine ⟨trivial, fun p hp => ?_⟩
    cases List.mem_singleton.1 hp
    exact attached_iff.2 rfl
  have hg : GivenSingle (fun p => p = 2) once 0 := .prior fun b m0 o g => by
    have h1 := g.has
    unfold HasMeasure at h1
    rw [← g.id] at h1
    exact absurd h1 (Nat.not_lt_zero _)
  obtain ⟨f, hf, _⟩ := C27_total (x := x) hd hp (p := 3) (m := 1) rfl (by decide) (.inr ⟨once.take 3, 0, _,
    ⟨⟨[.call 1 0], rfl⟩, (by decide : 0 < 1), rfl⟩, hg⟩) noise
  exact ⟨f, hf⟩

/-- Finding: after conditioning once on an observation of two processes, the FDDs of the processes can be made (C27_total);
after conditioning again on the same observation, making the FDD of a process raises an error, because `infer_size` finds
dimensionalities one and two. -/
theorem C27_again_raises : (mkFdd (runOps again {}) 3 (.num [[0]]) .none).isSome ∧
    mkFdd (runOps again {}) 4 (.num [[0]]) .none = none :=
  ⟨rfl, rfl⟩

/-- A GP and its cross process with itself, and a GP that is made later; the posterior of the cross process given an
observation of the later GP. -/
noncomputable def later : List Op :=
  [.gp .zero affine none none,
   .cross [0, 0] [0],
   .gp .zero affine (some 0) none,
   .condition 0 (.exact 2 (.num [[0]]) (eye 1) [1]),
   .call 1 1,
   .call 1 0]

/-- Finding: an FDD of the posterior of a cross process cannot be made given an observation of an independent process that
is newer than the cross process. -/
theorem C27_later_raises : mkFdd (runOps later {}) 3 (.num [[0]]) .none = none ∧
    (mkFdd (runOps later {}) 4 (.num [[0]]) .none).isSome :=
  ⟨rfl, rfl⟩

/-- Why `Input.Flat` is required in C27_size: for the cross process of a cross process, the size of `c(x)` is inferred from
the numbers of rows of the inputs. -/
theorem C27_nested_wrong :
    let ops := [.gp .zero affine none none, .cross [0, 0] [0], .cross [1, 0] [0]]
    ∃ f, mkFdd (runOps ops {}) 2 (.tup [.fdd 1 (.num [[0]])]) .none = some f ∧ f.noise.r = 1 ∧
      ∀ v, MeanCall (runOps ops {}) 0 2 (.tup [.fdd 1 (.num [[0]])]) v → v.length = 2 := by
  intro ops
  refine ⟨_, rfl, rfl, fun v hv => ?_⟩
  refine congrArg List.length (hv.unique ⟨_, 10, rfl, rfl⟩)

end Stheno
