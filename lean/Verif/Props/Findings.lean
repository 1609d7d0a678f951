import Verif.Props.Fdd
import Verif.Props.Notation
import Verif.Props.ExprRuns

/-!
# Further findings
-/

namespace Stheno

theorem KernelCall.deep {w : World} {m : MId} {p q : PId} {x y : Input} {A : Mat} {k : KExpr} (h : KernelCall w m p q x y A)
    (hk : kernelAt w m p q = some k) (n : ℕ) : ∃ n', (ev (meanAt w) (kernelAt w) (n' + n)).K k x y = some A := by
  obtain ⟨k', n', hk', h⟩ := h
  rw [hk] at hk'
  cases hk'
  exact ⟨n', (ev_le (Nat.le_add_right _ _)).K _ _ _ _ h⟩

/-- **C15, a finding.** Suppose that the kernel between `c` and `p` is the zero kernel, as it is if `p` is made after `c` and independently of it
(C09), and that `c` has more than one output: at `xs`, its kernel has more rows than `xs`. Then the kernel of the cross process `d` of `c` and `p`
raises at `xs`, because the zero kernel does not know the number of outputs of `c`. -/
theorem C15_later_raises {w : World} {m : MId} {c p d : PId} {xs : List Pt} (hd : kernelAt w m d d = some (.mok m [c, p]))
    (h0 : kernelAt w m c p = some .zero) (hc : ∀ A, KernelCall w m c c (.num xs) (.num xs) A → A.r ≠ xs.length) (A : Mat) :
    ¬ KernelCall w m d d (.num xs) (.num xs) A := by
  intro h
  obtain ⟨n, h⟩ := h.deep hd 3
  change Stheno.tupK (ev (meanAt w) (kernelAt w) (n + 1)) (.mok m [c, p]) [.fdd c (.num xs), .fdd p (.num xs)] [.fdd c (.num xs), .fdd p (.num xs)] = some A at h
  unfold tupK at h
  obtain ⟨rows, h1, -⟩ := Option.bind_eq_some_iff.1 h
  rw [List.mapM_cons] at h1
  obtain ⟨row, h1, -⟩ := Option.bind_eq_some_iff.1 h1
  obtain ⟨es, h1, h2⟩ := Option.bind_eq_some_iff.1 h1
  rw [List.mapM_cons] at h1
  obtain ⟨B, hB, h1⟩ := Option.bind_eq_some_iff.1 h1
  obtain ⟨es', h3, h1⟩ := Option.bind_eq_some_iff.1 h1
  rw [List.mapM_cons] at h3
  obtain ⟨Z, hZ, h3⟩ := Option.bind_eq_some_iff.1 h3
  cases h3
  cases h1
  change (do (ev (meanAt w) (kernelAt w) n).K (← kernelAt w m c c) (.num xs) (.num xs)) = some B at hB
  obtain ⟨k, hk, hB⟩ := Option.bind_eq_some_iff.1 hB
  change (do (ev (meanAt w) (kernelAt w) n).K (← kernelAt w m c p) (.num xs) (.num xs)) = some Z at hZ
  rw [h0] at hZ
  have hZ' : Z = ⟨xs.length, xs.length, fun _ _ => 0⟩ := by
    cases n with
    | zero => cases hZ
    | succ n => cases hZ; rfl
  have hr := hc B ⟨k, n, hk, hB⟩
  change Mat.hcat B Z = some row at h2
  rw [Mat.hcat, if_neg (by rw [hZ']; exact hr)] at h2
  cases h2

/-- The cross process `1` of two processes, a process `2` that is made after it, and the cross process `3` of these. -/
noncomputable def newest : List Op :=
  [.gp .zero affine none none,
   .cross [0, 0] [0],
   .gp .zero affine (some 0) none,
   .cross [1, 2] [0]]

/-- The same, but `1` is made before the cross process `2`. -/
noncomputable def oldest : List Op :=
  [.gp .zero affine none none,
   .gp .zero affine (some 0) none,
   .cross [0, 0] [0],
   .cross [2, 1] [0]]

/-- The kernel of the cross process of two processes, at numeric inputs. -/
theorem RunK.cross_two {lm : MId → PId → Option MExpr} {lk : MId → PId → PId → Option KExpr} {m : MId} {a b : PId} {xs ys : List Pt} {B : PId → PId → Mat}
    (h : ∀ p ∈ [a, b], ∀ q ∈ [a, b], ∃ k, lk m p q = some k ∧ RunK lm lk k (.num xs) (.num ys) (B p q)) (ha : (B a a).r = (B a b).r)
    (hb : (B b a).r = (B b b).r) (hc : (B a a).c + (B a b).c = (B b a).c + (B b b).c) :
    ∃ M, RunK lm lk (.mok m [a, b]) (.num xs) (.num ys) M ∧ M.r = (B a a).r + (B b a).r ∧ M.c = (B a a).c + (B a b).c := by
  let id : Input → PId := fun | .fdd p _ => p | _ => 0
  let R : PId → Mat := fun p => ⟨(B p a).r, (B p a).c + (B p b).c, fun i j => if j < (B p a).c then (B p a).e i j else (B p b).e i (j - (B p a).c)⟩
  have hM := RunK.tup_tup (RunK.tupK (lm := lm) (lk := lk) (k := .mok m [a, b]) (xs := [.fdd a (.num xs), .fdd b (.num xs)])
    (ys := [.fdd a (.num ys), .fdd b (.num ys)]) (G := fun x y => B (id x) (id y)) (R := fun x => R (id x)) (M := ⟨(R a).r + (R b).r, (R a).c, fun i j =>
      if i < (R a).r then (R a).e i j else (R b).e (i - (R a).r) j⟩)
    (by
      intro x hx y hy
      have run : ∀ p ∈ [a, b], ∀ q ∈ [a, b], RunK lm lk (.mok m [a, b]) (.fdd p (.num xs)) (.fdd q (.num ys)) (B p q) := fun p hp q hq => by
        obtain ⟨k, hk, h⟩ := h p hp q hq
        exact RunK.mok hk h
      simp only [List.mem_cons, List.not_mem_nil, or_false] at hx hy
      rcases hx with rfl | rfl <;> rcases hy with rfl | rfl <;> exact run _ (by simp) _ (by simp))
    (by
      intro x hx
      simp only [List.mem_cons, List.not_mem_nil, or_false] at hx
      rcases hx with rfl | rfl
      · exact if_pos ha
      · exact if_pos hb)
    (if_pos hc))
  obtain ⟨n, hM⟩ := hM
  exact ⟨_, ⟨n + 1, hM⟩, rfl, rfl⟩

/-- The order in which the processes are made matters: with the cross process before the other process, the cross process of both raises; the other way
around, it returns. -/
theorem C15_newest_raises {xs : List Pt} (hx : xs ≠ []) : (∀ A, ¬ KernelCall (runOps newest {}) 0 3 3 (.num xs) (.num xs) A) ∧
    ∀ x, ∃ A, KernelCall (runOps oldest {}) 0 3 3 (.num [x]) (.num [x]) A ∧ A.r = 3 ∧ A.c = 3 := by
  have prim : ∀ (lm : MId → PId → Option MExpr) (lk : MId → PId → PId → Option KExpr), RunK lm lk affine (.num xs) (.num xs)
      ⟨xs.length, xs.length, fun i j => (xs.getD i []).sum * (xs.getD j []).sum + 1⟩ := fun _ _ => ⟨1, rfl⟩
  constructor
  · refine C15_later_raises (c := 1) (p := 2) rfl rfl fun A h e => ?_
    obtain ⟨M, ⟨n, hM⟩, hr, -⟩ := RunK.cross_two (lm := meanAt (runOps newest {})) (lk := kernelAt (runOps newest {})) (m := 0) (a := 0) (b := 0)
      (xs := xs) (ys := xs) (B := fun _ _ => _) (fun p hp q hq => ⟨affine, by
        simp only [List.mem_cons, List.not_mem_nil, or_false] at hp hq
        rcases hp with rfl | rfl <;> rcases hq with rfl | rfl <;> rfl, prim _ _⟩) rfl rfl rfl
    have := h.unique ⟨_, n, rfl, hM⟩
    rw [this, hr] at e
    exact hx (List.length_eq_zero_iff.1 (by change xs.length + xs.length = _ at e; omega))
  · exact fun x => ⟨_, ⟨_, 10, rfl, rfl⟩, rfl, rfl⟩

/-! ## Conditioning on several pairs -/

theorem cross_gps {ops : List Op} {ps : List PId} {ord : List MId} (hr : (Op.cross ps ord).raises (runOps ops {}) = none) :
    (runOps (ops ++ [.cross ps ord]) {}).gps = (runOps ops {}).gps ++ [ord] := by
  have hi := Inv.reach ops
  have hok := hi.ok hr
  have hi' := (hi.after (.cross ps ord)).1
  obtain ⟨v, hv⟩ := forget_ok hok
  obtain ⟨_, _, _, _, _, _, e⟩ := aCross_ok hv
  rw [after_eq, hi'.rel.gps, e, pushAll_new, hi.rel.gps]

theorem cross_ms_length {ops : List Op} {ps : List PId} {ord : List MId} (hr : (Op.cross ps ord).raises (runOps ops {}) = none) :
    (runOps (ops ++ [.cross ps ord]) {}).ms.length = (runOps ops {}).ms.length := by
  have hi := Inv.reach ops
  have hok := hi.ok hr
  have hi' := (hi.after (.cross ps ord)).1
  obtain ⟨v, hv⟩ := forget_ok hok
  obtain ⟨_, _, _, _, _, _, e⟩ := aCross_ok hv
  rw [after_eq, hi'.rel.len, e, pushAll_ms_length, hi.rel.len]
  rfl

/-- **C24, a finding.** Conditioning on several pairs makes a process (the cross process of the observed processes), which stays in all measures that the
observed processes have in common: the prior, but also posteriors that have nothing to do with the observation. Conditioning on one pair makes none. -/
theorem C24_pairs_leave {b os : List Op} {n : ℕ} {ord : List MId} {m : MId} {e e' : Fdd × Vals} {l : List (Fdd × Vals)}
    (h : conditionArgs (runOps b {}) n ord m ((e :: e' :: l).map pairArg) = some os) :
    (runOps (b ++ os) {}).gps.length = (runOps b {}).gps.length + 1 ∧
    ∀ m' < (runOps b {}).ms.length, Attached (runOps (b ++ os) {}) m' (runOps b {}).gps.length ↔
      ∀ f ∈ e :: e' :: l, Attached (runOps b {}) m' f.1.p := by
  obtain ⟨⟨l1, o'⟩, h1, h⟩ := bind_some h
  obtain ⟨l', hl', h1⟩ := bind_some h1
  have : l' = e :: e' :: l := by
    have h1 := pairs_mapM (e :: e' :: l)
    have h2 : ((e :: e' :: l).map pairArg).mapM Arg.pair? = some l' := hl'
    rw [h1] at h2
    exact (Option.some.inj h2).symm
  subst this
  obtain ⟨⟨oc, f⟩, hcf, h1⟩ := bind_some h1
  obtain ⟨_, ho', h1⟩ := bind_some h1
  cases h1
  cases h
  unfold combine at hcf
  simp only at hcf
  split at hcf
  · cases hcf
  · next hr =>
    obtain ⟨f', hf, h⟩ := bind_some hcf
    cases h
    have e1 : ((e :: e' :: l).map (·.1)).map (·.p) = e.1.p :: (e' :: l).map (·.1.p) := by rw [List.map_map]; rfl
    rw [e1] at hr ⊢
    have ea : ∀ c : Op, b ++ ([c] ++ [Op.condition m o']) = (b ++ [c]) ++ [Op.condition m o'] := fun c => by simp
    rw [ea, condition_gps_length, cross_gps hr]
    refine ⟨by simp, fun m' hm' => ?_⟩
    have key := C32_result b e.1.p ((e' :: l).map fun e : Fdd × Vals => e.1.p) _ (.inr ⟨ord, rfl⟩) hr m'
    rw [← after_eq, ← (C32_consistent _).1, ← (C32_consistent _).1] at key
    have hc : Attached (runOps ((b ++ [Op.cross (e.1.p :: (e' :: l).map (·.1.p)) ord]) ++ [Op.condition m o']) {}) m' (runOps b {}).gps.length ↔
        Attached (runOps (b ++ [Op.cross (e.1.p :: (e' :: l).map (·.1.p)) ord]) {}) m' (runOps b {}).gps.length := by
      have hi := Inv.reach (b ++ [Op.cross (e.1.p :: (e' :: l).map (·.1.p)) ord])
      have hi' := Inv.reach ((b ++ [Op.cross (e.1.p :: (e' :: l).map (·.1.p)) ord]) ++ [Op.condition m o'])
      have hs : specOps ((b ++ [Op.cross (e.1.p :: (e' :: l).map (·.1.p)) ord]) ++ [Op.condition m o']) {} =
        (Op.condition m o').specAfter (specOps (b ++ [Op.cross (e.1.p :: (e' :: l).map (·.1.p)) ord]) {}) := specOps_append ..
      rw [hi.attached, hi'.attached, hs]
      have hlen : m' < (specOps (b ++ [Op.cross (e.1.p :: (e' :: l).map (·.1.p)) ord]) {}).ms.length := by
        rw [← hi.rel.len, cross_ms_length hr]; exact hm'
      cases ha : (specOps (b ++ [Op.cross (e.1.p :: (e' :: l).map (·.1.p)) ord]) {}).ms[m]? with
      | none => rw [condition_spec_none ha]
      | some a => rw [condition_spec ha, cond_ms m' hlen]
    rw [hc, key]
    constructor
    · rintro ⟨h1, h2⟩ f hf
      rcases List.mem_cons.1 hf with rfl | hf
      · exact h1
      · exact ((C32_consistent _).1 _ _).2 (h2 _ (List.mem_map_of_mem hf))
    · refine fun h => ⟨h _ (by simp), fun q hq => ?_⟩
      obtain ⟨f, hf, rfl⟩ := List.mem_map.1 hq
      exact ((C32_consistent _).1 _ _).1 (h f (List.mem_cons_of_mem _ hf))

/-- Two processes in a prior `0` and in a posterior `1`. -/
noncomputable def pair : List Op :=
  [.gp .zero affine none none,
   .gp .zero affine (some 0) none,
   .condition 0 (.exact 0 (.num [[5]]) (eye 1) [1])]

/-- Conditioning the prior on two pairs: the new process `2` is also in the posterior `1`. -/
example : ∃ os, conditionArgs (runOps pair {}) 5 [0, 1] 0 [pairArg (⟨0, .num [[0]], eye 1⟩, [some 1]), pairArg (⟨1, .num [[2]], eye 1⟩, [some 3])] = some os ∧
    (runOps (pair ++ os) {}).gps.length = 3 ∧ Attached (runOps (pair ++ os) {}) 0 2 ∧ Attached (runOps (pair ++ os) {}) 1 2 := by
  refine ⟨_, rfl, ?_⟩
  have h := C24_pairs_leave (b := pair) (n := 5) (ord := [0, 1]) (m := 0) (e := (⟨0, .num [[0]], eye 1⟩, [some 1])) (e' := (⟨1, .num [[2]], eye 1⟩, [some 3]))
    (l := []) rfl
  have at_ : ∀ m < 2, ∀ p < 2, Attached (runOps pair {}) m p := fun m hm p hp => attached_iff.2 (by interval_cases m <;> interval_cases p <;> rfl)
  refine ⟨h.1, (h.2 0 (by decide)).2 ?_, (h.2 1 (by decide)).2 ?_⟩ <;>
  · intro f hf
    simp only [List.mem_cons, List.not_mem_nil, or_false] at hf
    rcases hf with rfl | rfl <;> exact at_ _ (by decide) _ (by decide)

/-! ## Sums of three processes -/

/-- **C51, a finding.** Three processes that can be added in pairs cannot always be added: if the processes are in several measures and Python iterates over
the set of their common measures in an order that does not begin with the primary measure, then `p + q + r` raises an `AssertionError`. -/
theorem C51_sum_raises {before : List Op} {ord : PId → List MId} {p q r : PId} {m m' : MId} (h : Proper before)
    (hp : (groups (runOps before {}) p).head? = some m) (hq : (groups (runOps before {}) q).head? = some m)
    (hr : (groups (runOps before {}) r).head? = some m) (ho : (ord (runOps before {}).gps.length).Nodup)
    (hm : ∀ k, k ∈ ord (runOps before {}).gps.length ↔ k ∈ groups (runOps before {}) p ∧ k ∈ groups (runOps before {}) q)
    (h' : (ord (runOps before {}).gps.length).head? = some m') (hne : m' ≠ m) :
    ∃ l, PyExpr.eval ord (.add (.add (.var p) (.var q)) (.var r)) before = .error .assertion l := by
  set o := Op.add p q (ord (runOps before {}).gps.length) with ho'
  have hor : o.raises (runOps before {}) = none :=
    ((C32_succeeds before h p [q] m _ hp (by simpa using hq) ho (by simpa using hm)).2 q rfl).1
  have lt : ∀ {s : PId}, (groups (runOps before {}) s).head? = some m → s < (runOps before {}).gps.length := fun hs =>
    groups_lt fun e => by rw [e] at hs; cases hs
  have hg : (runOps (before ++ [o]) {}).gps = (runOps before {}).gps ++ [ord (runOps before {}).gps.length] := add_gps hor
  have hl : r < (runOps (before ++ [o]) {}).gps.length := by rw [hg, List.length_append]; exact Nat.lt_add_right _ (lt hr)
  have var : ∀ {s : PId} {b : List Op}, s < (runOps b {}).gps.length → PyExpr.eval ord (.var s) b = .ok (.gp s) b := fun hs => by
    have : existing _ _ = .ok _ _ := if_pos hs
    exact bind_run this
  have per : perform o before = .ok (runOps before {}).gps.length (before ++ [o]) := by
    unfold Op.raises at hor
    unfold perform
    split at hor
    · next e => rw [e]
    · cases hor
  have sum : PyExpr.eval ord (.add (.var p) (.var q)) before = .ok (.gp (runOps before {}).gps.length) (before ++ [o]) := by
    refine (bind_run (var (lt hp))).trans ((bind_run (var (lt hq))).trans ?_)
    refine bind_run (c := gpPlus ord p (.gp q)) (f := fun r => pure (PyVal.gp r)) ?_
    exact (bind_run (c := nextGP) rfl).trans per
  have hgr : groups (runOps (before ++ [o]) {}) r = groups (runOps before {}) r := by
    rw [groups, hg, List.getElem?_append_left (lt hr)]; rfl
  have hgn : groups (runOps (before ++ [o]) {}) (runOps before {}).gps.length = ord (runOps before {}).gps.length := by
    rw [groups, hg, List.getElem?_concat_length]; rfl
  have no := (C32_mismatch (before ++ [o]) (runOps before {}).gps.length r m' m (ord (runOps (before ++ [o]) {}).gps.length) (by rw [hgn, h'])
    (by rw [hgr, hr]) hne).1.raises
  set l := before ++ [o] ++ [.add (runOps before {}).gps.length r (ord (runOps (before ++ [o]) {}).gps.length)] with hll
  refine ⟨l, ?_⟩
  refine (bind_run sum).trans ((bind_run (var hl)).trans ?_)
  have per' : gpPlus ord (runOps before {}).gps.length (.gp r) (before ++ [o]) = .error .assertion l := by
    refine (bind_run (c := nextGP) rfl).trans ?_
    unfold Op.raises at no
    unfold perform
    split at no
    · cases no
    · next e => cases no; rw [e]
  show EStateM.bind (gpPlus ord (runOps before {}).gps.length (.gp r)) _ _ = _
  unfold EStateM.bind
  rw [per']

/-- In `demo`, the processes `0`, `2` and `4` are in the measures `0` and `1`; with the iteration order `1, 0`, their sum raises; with `0, 1` it does not. -/
example : (∃ l, PyExpr.eval (fun _ => [1, 0]) (.add (.add (.var 0) (.var 2)) (.var 4)) demo = .error .assertion l) ∧
    ∃ v l, PyExpr.eval (fun _ => [0, 1]) (.add (.add (.var 0) (.var 2)) (.var 4)) demo = .ok v l := by
  constructor
  · exact C51_sum_raises (m := 0) (m' := 1) demo_proper rfl rfl rfl (by decide) (fun k => by
      show k ∈ [1, 0] ↔ k ∈ [0, 1] ∧ k ∈ [0, 1]
      simp [or_comm]) rfl (by decide)
  · refine C51_returns (g := [0, 1]) demo_proper (by decide) (fun _ => ⟨.rfl, rfl⟩) (fun p hp => ?_) rfl (by simp [PyExpr.Divides])
    simp only [PyExpr.vars, List.mem_append, List.mem_singleton] at hp
    rcases hp with (rfl | rfl) | rfl <;> exact ⟨.rfl, rfl⟩

end Stheno
