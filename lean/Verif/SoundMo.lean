import Verif.SoundDiff

/-!
# Soundness of multi-output kernels and means
-/

namespace Stheno

set_option linter.unusedSectionVars false

variable {V : Type} [AddCommGroup V] [Module ℝ V] {S : SO V} {G : RF V} {F : PId → RF V}
variable {lm : MId → PId → Option MExpr} {lk : MId → PId → PId → Option KExpr} {n : ℕ} {m : MId} {ps : List PId}

/-- The law of a multi-output process. It has values at FDDs of its components only. -/
def IsCross (F : PId → RF V) (ps : List PId) (G : RF V) : Prop :=
  (∀ xs, G (.num xs) = (ps.mapM fun p => F p (.num xs)).map List.flatten) ∧
  ∀ q x, G (.fdd q x) = if q ∈ ps then F q x else none

/-- The same with values at all FDDs, as the code has it. -/
structure IsFullCross (F : PId → RF V) (ps : List PId) (G : RF V) : Prop where
  num : ∀ xs, G (.num xs) = (ps.mapM fun p => F p (.num xs)).map List.flatten
  fdd : ∀ q x, G (.fdd q x) = F q x

mutual
/-- The random function with given values at inputs that are not tuples. -/
def RF.lift (g : RF V) : RF V
  | .num xs => g (.num xs)
  | .fdd p x => g (.fdd p x)
  | .tup xs => RF.liftL g xs
/-- Concatenation over a tuple. -/
def RF.liftL (g : RF V) : List Input → Option (List V)
  | [] => some []
  | x :: xs => do
    let vs ← RF.lift g x
    let ws ← RF.liftL g xs
    pure (vs ++ ws)
end

theorem RF.lift_tup (g : RF V) (xs : List Input) :
    RF.lift g (.tup xs) = (xs.mapM (RF.lift g)).map List.flatten := by
  show RF.liftL g xs = _
  induction xs with
  | nil => simp [RF.liftL]
  | cons x xs ih =>
    rw [RF.liftL, ih, List.mapM_cons]
    cases RF.lift g x with
    | none => rfl
    | some vs =>
      cases xs.mapM (RF.lift g) with
      | none => rfl
      | some ws => rfl

theorem RF.lift_atom (g : RF V) {x : Input} (h : x.IsAtom) : RF.lift g x = g x := by
  cases x with
  | num => simp only [RF.lift]
  | fdd => simp only [RF.lift]
  | tup => exact h.elim

theorem RF.lift_ok {g : RF V} (size : ∀ x vs, x.IsAtom → g x = some vs → numElements x ≤ vs.length)
    (pointwise : ∀ xs vs, g (.num xs) = some vs → vs.length = xs.length →
      ∀ (i : ℕ) x v, xs[i]? = some x → vs[i]? = some v → g (.num [x]) = some [v]) : (RF.lift g).OK := by
  refine ⟨RF.lift_tup g, fun x => ?_, fun xs vs h => ?_⟩
  · induction x using Input.atomInd with
    | atom x hx => intro vs h; rw [RF.lift_atom g hx] at h; exact size x vs hx h
    | tup xs ih =>
      intro vs h
      have h' : RF.liftL g xs = some vs := h
      show numElementsL xs ≤ _
      clear h
      induction xs generalizing vs with
      | nil => exact Nat.zero_le _
      | cons x xs ih' =>
        rw [RF.liftL] at h'
        obtain ⟨us, hu, h'⟩ := bind_some h'
        obtain ⟨ws, hw, h'⟩ := bind_some h'
        cases h'
        rw [List.length_append]
        exact Nat.add_le_add (ih x (by simp) us hu) (ih' (fun y hy => ih y (by simp [hy])) ws hw)
  · rw [RF.lift_atom g (x := .num xs) trivial] at h
    intro hl i x v hx hv
    rw [RF.lift_atom g (x := .num [x]) trivial]
    exact pointwise xs vs h hl i x v hx hv

/-- The full process agrees with the process where that has values. -/
theorem IsCross.full (h : IsCross F ps G) (hG : G.OK) (hF : ∀ q, (F q).OK) :
    ∃ G', RF.OK G' ∧ IsFullCross F ps G' ∧ ∀ x vs, x.IsAtom → G x = some vs → G' x = some vs := by
  let g : RF V := fun x => match x with
    | .fdd q x => F q x
    | x => G x
  refine ⟨RF.lift g, RF.lift_ok (fun x vs hx h' => ?_) (fun xs vs h' => hG.pointwise xs vs h'),
    ⟨fun xs => ?_, fun q x => ?_⟩, fun x vs hx h' => ?_⟩
  · cases x with
    | num xs => exact hG.size _ _ h'
    | fdd q x => exact (hF q).size x vs h'
    | tup => exact hx.elim
  · rw [RF.lift_atom g (x := .num xs) trivial]; exact h.1 xs
  · rw [RF.lift_atom g (x := .fdd q x) trivial]
  · rw [RF.lift_atom g hx]
    cases x with
    | num xs => exact h'
    | fdd q x =>
      rw [h.2] at h'
      split at h'
      · exact h'
      · cases h'
    | tup => exact hx.elim

theorem RF.OK.mono {G' : RF V} (hG : G.OK) (hG' : G'.OK)
    (h : ∀ x vs, x.IsAtom → G x = some vs → G' x = some vs) : ∀ x vs, G x = some vs → G' x = some vs := by
  intro x
  induction x using Input.atomInd with
  | atom x hx => exact fun vs => h x vs hx
  | tup xs ih =>
    induction xs with
    | nil => intro vs hv; rw [hG.nil] at hv; cases hv; exact hG'.nil
    | cons x xs ih' =>
      intro vs hv
      obtain ⟨v, v', h1, h2, rfl⟩ := hG.cons hv
      exact hG'.cons_of (ih x (by simp) _ h1) (ih' (fun y hy => ih y (by simp [hy])) _ h2)

theorem IsFullCross.expand (h : IsFullCross F ps G) (hG : G.OK) (xs : List Pt) :
    G (.tup (ps.map (.fdd · (.num xs)))) = G (.num xs) := by
  rw [h.num, hG.tup]
  congr 1
  rw [List.mapM_map]
  congr 1
  funext p
  exact h.fdd p _

theorem IsCross.single (hG : G.OK) (x : Input) : G (.tup [x]) = G x := by
  rw [hG.tup]
  cases h : G x <;> simp [h]

theorem AK.mokFull (hG : G.OK) (h : IsFullCross F ps G)
    (hk : ∀ n' < n, ∀ p q k, lk m p q = some k → SK lm lk n' k (cov S (F p) (F q))) :
    AK lm lk n (.mok m ps) (cov S G G) := by
  induction n using Nat.strong_induction_on with
  | _ n ih =>
    have sk : ∀ n' < n, SK lm lk n' (.mok m ps) (cov S G G) := fun n' hn =>
      AK.lift hG hG (ih n' hn fun n'' hn' => hk n'' (hn'.trans hn))
    refine AK.intro (by simp) (fun n' hn x y M T hx hy hM hT => ?_) (fun n' hn x y u T hx hy hM hT => ?_)
    · cases x with
      | tup => exact hx.elim
      | num xs =>
        cases y with
        | tup => exact hy.elim
        | num ys =>
          refine (sk n' hn).K _ _ _ _ hM ?_
          rw [← hT]
          unfold cov
          rw [h.expand hG, h.expand hG]
        | fdd q y =>
          refine (sk n' hn).K _ _ _ _ hM ?_
          rw [← hT]
          unfold cov
          rw [h.expand hG, IsCross.single hG]
      | fdd p x =>
        cases y with
        | tup => exact hy.elim
        | num ys =>
          refine (sk n' hn).K _ _ _ _ hM ?_
          rw [← hT]
          unfold cov
          rw [h.expand hG, IsCross.single hG]
        | fdd q y =>
          obtain ⟨k, hk', hM⟩ := bind_some hM
          refine (hk n' hn p q k hk').K _ _ _ _ hM ?_
          rw [← hT]
          unfold cov
          rw [h.fdd, h.fdd]
    · cases x with
      | tup => exact hx.elim
      | num xs =>
        cases y with
        | tup => exact hy.elim
        | num ys =>
          refine (sk n' hn).D _ _ _ _ hM ?_
          rw [← hT]
          unfold cov
          rw [h.expand hG, h.expand hG]
        | fdd q y => simp [stepDAtom] at hM
      | fdd p x =>
        cases y with
        | tup => exact hy.elim
        | num ys => simp [stepDAtom] at hM
        | fdd q y =>
          obtain ⟨k, hk', hM⟩ := bind_some hM
          refine (hk n' hn p q k hk').D _ _ _ _ hM ?_
          rw [← hT]
          unfold cov
          rw [h.fdd, h.fdd]

theorem AK.mok (hG : G.OK) (hF : ∀ q, (F q).OK) (h : IsCross F ps G)
    (hk : ∀ n' < n, ∀ p q k, lk m p q = some k → SK lm lk n' k (cov S (F p) (F q))) :
    AK lm lk n (.mok m ps) (cov S G G) := by
  obtain ⟨G', hG', h', hle⟩ := h.full hG hF
  have ak := AK.mokFull hG' h' hk
  refine ⟨by simp, fun x y A T hx hy hA hT => ?_, fun x y u T hx hy hu hT => ?_⟩
  · obtain ⟨vs, ws, h1, h2, rfl⟩ := cov_some _ hT
    exact ak.K x y A _ hx hy hA (cov_of _ (hle _ _ hx h1) (hle _ _ hy h2))
  · obtain ⟨vs, ws, h1, h2, rfl⟩ := cov_some _ hT
    exact ak.D x y u _ hx hy hu (cov_of _ (hle _ _ hx h1) (hle _ _ hy h2))

theorem AK.crossLeft (hG : G.OK) (hF : ∀ q, (F q).OK) (h : IsCross F ps G)
    (hk : ∀ n' < n, ∀ p q k, lk m p q = some k → SK lm lk n' k (cov S (F p) (F q))) (j : PId) :
    AK lm lk n (.adk (.pre .none (.toFdd j) (.mok m ps))) (cov S G (F j)) := by
  obtain ⟨G', hG', h', hle⟩ := h.full hG hF
  refine AK.adk ?_
  refine AK.intro (by simp) (fun n' hn x y M T hx hy hM hT => ?_) (fun n' hn x y u T hx hy hM hT => ?_)
  all_goals
    have ak := AK.mokFull (n := n') hG' h' fun n'' hn' => hk n'' (hn'.trans hn)
    obtain ⟨x', hx', hM⟩ := bind_some hM
    obtain ⟨y', hy', hM⟩ := bind_some hM
    have e1 : x' = x := by cases x <;> simp_all [InTr.apply]
    have e2 : y' = .fdd j y := by cases y <;> simp_all [InTr.apply]
    subst e1 e2
    obtain ⟨vs, ws, h1, h2, rfl⟩ := cov_some _ hT
    have hc : cov S G' G' x' (.fdd j y) = some (covMat S vs ws) :=
      cov_of _ (hle _ _ hx h1) (by rw [h'.fdd]; exact h2)
  · exact ak.K x' (.fdd j y) _ _ hx trivial hM hc
  · exact ak.D x' (.fdd j y) _ _ hx trivial hM hc

theorem SM.momFull (hG : G.OK) (h : IsFullCross F ps G)
    (hm : ∀ n' < n, ∀ p a, lm m p = some a → SM lm lk n' a (expect S (F p))) :
    SM lm lk n (.mom m ps) (expect S G) := by
  induction n using Nat.strong_induction_on with
  | _ n ih =>
    refine SM.intro fun n' hn x u t hu ht => ?_
    have sm := ih n' hn fun n'' hn' => hm n'' (hn'.trans hn)
    cases x with
    | num xs =>
      refine sm.fits le_rfl hu ?_
      rw [← ht]
      unfold expect
      rw [h.expand hG]
    | fdd p x =>
      obtain ⟨a, ha, hu⟩ := bind_some hu
      refine (hm n' hn p a ha).fits le_rfl hu ?_
      rw [← ht]
      unfold expect
      rw [h.fdd]
    | tup xs =>
      simp only [stepM] at hu
      split at hu
      · cases hu
      · obtain ⟨us, hus, rfl⟩ := Option.map_eq_some_iff.1 hu
        obtain ⟨vs, hvs, rfl⟩ := expect_some ht
        clear ht hu
        revert us vs
        induction xs with
        | nil => intro us hus vs hvs; rw [hG.nil] at hvs; cases hvs; simp at hus; subst hus; exact FitsM.refl _
        | cons x xs ih' =>
          intro us hus vs hvs
          obtain ⟨b, bs, hb, hbs, rfl⟩ := mapM_cons_some hus
          obtain ⟨v, v', hv, hv', rfl⟩ := hG.cons hvs
          rw [List.flatten_cons, List.map_append]
          refine FitsM.append (sm.fits le_rfl hb (expect_of hv)) ?_
          by_cases hx : xs = []
          · subst hx
            simp at hbs
            subst hbs
            rw [hG.nil] at hv'
            cases hv'
            exact FitsM.refl _
          · exact ih' hx bs hbs v' hv'

theorem SM.mom (hG : G.OK) (hF : ∀ q, (F q).OK) (h : IsCross F ps G)
    (hm : ∀ n' < n, ∀ p a, lm m p = some a → SM lm lk n' a (expect S (F p))) :
    SM lm lk n (.mom m ps) (expect S G) := by
  obtain ⟨G', hG', h', hle⟩ := h.full hG hF
  intro x u t hu ht
  obtain ⟨vs, hvs, rfl⟩ := expect_some ht
  exact SM.momFull hG' h' hm x u _ hu (expect_of (hG.mono hG' hle _ _ hvs))

end Stheno
