import Verif.SoundTup

/-!
# Results are at least as large as inputs

Whatever means and kernels there are, a result has at least one row for every element of the input.
-/

namespace Stheno

open Mat

section
variable {lm : MId → PId → Option MExpr} {lk : MId → PId → PId → Option KExpr}

/-- The results of an evaluator are at least as large as the inputs. -/
structure Ev.Big (r : Ev) : Prop where
  M : ∀ a x u, r.M a x = some u → numElements x ≤ u.length
  K : ∀ k x y A, r.K k x y = some A → numElements x ≤ A.r ∧ numElements y ≤ A.c
  emptyM : ∀ m ps, r.M (.mom m ps) (.tup []) = none
  emptyL : ∀ k y, r.K k (.tup []) y = none
  emptyR : ∀ k x, r.K k x (.tup []) = none

theorem numElementsL_fdd (ps : List PId) (x : Input) (h : ps ≠ []) :
    numElements x ≤ numElementsL (ps.map (.fdd · x)) := by
  cases ps with
  | nil => exact absurd rfl h
  | cons p ps => simp only [List.map_cons, numElementsL, numElements]; omega

theorem stepFn_big {r : Ev} (hr : r.Big) {f : Fn} {x : Input} {u : List ℝ} (h : stepFn lm r f x = some u) :
    numElements x ≤ u.length := by
  cases f with
  | user f =>
    cases x <;> simp only [stepFn, Option.some.injEq, reduceCtorEq] at h
    subst h; simp [numElements]
  | const c => simp only [stepFn, Option.some.injEq] at h; subst h; simp
  | meanOf m p =>
    obtain ⟨a, _, h⟩ := bind_some h
    exact hr.M _ _ _ h

theorem hcatL_big : ∀ {As : List Mat} {M : Mat}, hcatL As = some M →
    M.c = (As.map (·.c)).sum ∧ ∀ A ∈ As, A.r = M.r
  | [], M, h => by cases h
  | [A], M, h => by cases h; simp
  | A :: B :: As, M, h => by
    change (hcatL (B :: As) >>= fun N => hcat A N) = some M at h
    obtain ⟨N, hN, h⟩ := bind_some h
    obtain ⟨hr, rfl⟩ := hcat_some h
    obtain ⟨ih1, ih2⟩ := hcatL_big hN
    refine ⟨by simp only [ih1, List.map_cons, List.sum_cons], fun A' hA' => ?_⟩
    rcases List.mem_cons.1 hA' with rfl | hA'
    · rfl
    · rw [ih2 A' hA']; exact hr.symm

theorem vcatL_big : ∀ {As : List Mat} {M : Mat}, vcatL As = some M →
    M.r = (As.map (·.r)).sum ∧ ∀ A ∈ As, A.c = M.c
  | [], M, h => by cases h
  | [A], M, h => by cases h; simp
  | A :: B :: As, M, h => by
    change (vcatL (B :: As) >>= fun N => vcat A N) = some M at h
    obtain ⟨N, hN, h⟩ := bind_some h
    obtain ⟨hr, rfl⟩ := vcat_some h
    obtain ⟨ih1, ih2⟩ := vcatL_big hN
    refine ⟨by simp only [ih1, List.map_cons, List.sum_cons], fun A' hA' => ?_⟩
    rcases List.mem_cons.1 hA' with rfl | hA'
    · rfl
    · rw [ih2 A' hA']; exact hr.symm

/-- If each result is at least as large as its input, then so are their sums. -/
theorem mapM_sum_big {β : Type} {f : Input → Option β} {s : β → ℕ} (hf : ∀ x b, f x = some b → numElements x ≤ s b) :
    ∀ {xs : List Input} {bs : List β}, xs.mapM f = some bs → numElementsL xs ≤ (bs.map s).sum
  | [], bs, h => by simp [numElementsL]
  | x :: xs, bs, h => by
    obtain ⟨b, bs, h1, h2, rfl⟩ := mapM_cons_some h
    have := hf x b h1
    have := mapM_sum_big hf h2
    simp only [numElementsL, List.map_cons, List.sum_cons]
    omega

theorem mem_mapM {α β : Type} {f : α → Option β} : ∀ {l : List α} {l' : List β}, l.mapM f = some l' →
    ∀ b ∈ l', ∃ a ∈ l, f a = some b
  | [], l', h, b, hb => by cases h; simp at hb
  | a :: l, l', h, b, hb => by
    obtain ⟨b', bs, h1, h2, rfl⟩ := mapM_cons_some h
    rcases List.mem_cons.1 hb with rfl | hb
    · exact ⟨a, List.mem_cons_self .., h1⟩
    · obtain ⟨a', ha', h'⟩ := mem_mapM h2 b hb
      exact ⟨a', List.mem_cons_of_mem _ ha', h'⟩

theorem tupK_big {r : Ev} (hr : r.Big) {k : KExpr} {xs ys : List Input} {M : Mat} (h : tupK r k xs ys = some M) :
    numElementsL xs ≤ M.r ∧ numElementsL ys ≤ M.c := by
  obtain ⟨rows, h1, h2⟩ := bind_some h
  obtain ⟨e1, e2⟩ := vcatL_big h2
  have row : ∀ x R, (do let row ← ys.mapM fun y => r.K k x y; Mat.hcatL row) = some R →
      numElementsL ys ≤ R.c ∧ numElements x ≤ R.r := by
    intro x R hR
    obtain ⟨row, h3, h4⟩ := bind_some hR
    obtain ⟨e3, e4⟩ := hcatL_big h4
    constructor
    · rw [e3]
      exact mapM_sum_big (s := fun A : Mat => A.c) (fun y A hA => (hr.K _ _ _ _ hA).2) h3
    · cases row with
      | nil => cases h4
      | cons A row =>
        rw [← e4 A (List.mem_cons_self ..)]
        obtain ⟨y, _, hA⟩ := mem_mapM h3 A (List.mem_cons_self ..)
        exact (hr.K _ _ _ _ hA).1
  constructor
  · rw [e1]
    exact mapM_sum_big (s := fun A : Mat => A.r) (fun x R hR => (row x R hR).2) h1
  · cases rows with
    | nil => cases h2
    | cons R rows =>
      rw [← e2 R (List.mem_cons_self ..)]
      obtain ⟨x, _, hR⟩ := mem_mapM h1 R (List.mem_cons_self ..)
      exact (row x R hR).1

theorem quad_some {n : ℕ} {W : Matrix (Fin n) (Fin n) ℝ} {B C M : Mat} (h : Mat.quad W B C = some M) :
    M.r = B.c ∧ M.c = C.c := by
  unfold Mat.quad at h
  split at h
  · cases h; exact ⟨rfl, rfl⟩
  · cases h

theorem stepKAtom_big {r : Ev} (hr : r.Big) {k : KExpr} {x y : Input} {A : Mat}
    (h : stepKAtom lm lk r k x y = some A) : numElements x ≤ A.r ∧ numElements y ≤ A.c := by
  cases k with
  | prim k =>
    cases x <;> cases y <;> simp only [stepKAtom, Option.some.injEq, reduceCtorEq] at h
    subst h; simp [numElements]
  | zero => simp only [stepKAtom, Option.some.injEq] at h; subst h; simp
  | mok m ps =>
    by_cases hp : ps = []
    · subst hp
      cases x with
      | num xs => cases y <;> simp [stepKAtom, hr.emptyL] at h
      | fdd p x =>
        cases y with
        | num ys => simp [stepKAtom, hr.emptyR] at h
        | fdd q y =>
          obtain ⟨k, _, h⟩ := bind_some h
          have hb := hr.K _ _ _ _ h; exact hb
        | tup ys => simp [stepKAtom] at h
      | tup xs => cases y <;> simp [stepKAtom] at h
    · cases x with
      | num xs =>
        cases y with
        | num ys =>
          have := hr.K _ _ _ _ h
          simp only [numElements] at this
          have h1 := numElementsL_fdd ps (.num xs) hp
          have h2 := numElementsL_fdd ps (.num ys) hp
          exact ⟨h1.trans this.1, h2.trans this.2⟩
        | fdd q y =>
          have := hr.K _ _ _ _ h
          simp only [numElements, numElementsL] at this
          have h1 := numElementsL_fdd ps (.num xs) hp
          exact ⟨h1.trans this.1, this.2⟩
        | tup ys => simp [stepKAtom] at h
      | fdd p x =>
        cases y with
        | num ys =>
          have := hr.K _ _ _ _ h
          simp only [numElements, numElementsL] at this
          have h2 := numElementsL_fdd ps (.num ys) hp
          exact ⟨this.1, h2.trans this.2⟩
        | fdd q y =>
          obtain ⟨k, _, h⟩ := bind_some h
          have hb := hr.K _ _ _ _ h; exact hb
        | tup ys => simp [stepKAtom] at h
      | tup xs => cases y <;> simp [stepKAtom] at h
  | adk k => exact hr.K _ _ _ _ h
  | add a b =>
    obtain ⟨A1, h1, h⟩ := bind_some h
    obtain ⟨B1, h2, h⟩ := bind_some h
    obtain ⟨_, _, rfl⟩ := add_some h
    have hb := hr.K _ _ _ _ h1; exact hb
  | mul a b =>
    obtain ⟨A1, h1, h⟩ := bind_some h
    obtain ⟨B1, h2, h⟩ := bind_some h
    obtain ⟨_, _, rfl⟩ := mul_some h
    have hb := hr.K _ _ _ _ h1; exact hb
  | scale c k =>
    obtain ⟨B, hB, rfl⟩ := Option.map_eq_some_iff.1 h
    have hb := hr.K _ _ _ _ hB; exact hb
  | tprod f g =>
    obtain ⟨u, h1, h⟩ := bind_some h
    obtain ⟨v, h2, h⟩ := bind_some h
    cases h
    exact ⟨stepFn_big hr h1, stepFn_big hr h2⟩
  | rev k =>
    obtain ⟨B, hB, rfl⟩ := Option.map_eq_some_iff.1 h
    exact (hr.K _ _ _ _ hB).symm
  | pre t u k =>
    obtain ⟨x', h1, h⟩ := bind_some h
    obtain ⟨y', h2, h⟩ := bind_some h
    rw [← InTr.apply_numElements h1, ← InTr.apply_numElements h2]
    have hb := hr.K _ _ _ _ h; exact hb
  | diff d e k =>
    cases x <;> cases y <;> simp only [stepKAtom, reduceCtorEq] at h
    unfold diffMat at h
    split at h
    · cases h; simp [numElements]
    · cases h
  | post kij kzi kzj z kzz noise =>
    obtain ⟨A1, h1, h⟩ := bind_some h
    obtain ⟨K1, h2, h⟩ := bind_some h
    obtain ⟨B1, h3, h⟩ := bind_some h
    obtain ⟨C1, h4, h⟩ := bind_some h
    obtain ⟨Q1, h5, h⟩ := bind_some h
    obtain ⟨_, _, rfl⟩ := sub_some h
    have hb := hr.K _ _ _ _ h1; exact hb
  | pseudo kij kzi kzj kzz kzx kxx o =>
    obtain ⟨A1, h1, h⟩ := bind_some h
    obtain ⟨K1, h2, h⟩ := bind_some h
    obtain ⟨B1, h3, h⟩ := bind_some h
    obtain ⟨C1, h4, h⟩ := bind_some h
    obtain ⟨Q1, h5, h⟩ := bind_some h
    obtain ⟨P1, h6, h⟩ := bind_some h
    obtain ⟨R1, h7, h⟩ := bind_some h
    obtain ⟨_, _, rfl⟩ := add_some h
    obtain ⟨_, _, rfl⟩ := sub_some h6
    have hb := hr.K _ _ _ _ h1; exact hb

theorem zipCol_length {f : ℝ → ℝ → ℝ} {u v w : List ℝ} (h : zipCol f u v = some w) : w.length = u.length := by
  obtain ⟨hl, rfl⟩ := zipCol_some h
  simp [hl]

theorem sum_length_flatten {ls : List (List ℝ)} : ls.flatten.length = (ls.map (·.length)).sum := by
  rw [List.length_flatten]

theorem stepM_big {r : Ev} (hr : r.Big) {a : MExpr} {x : Input} {u : List ℝ}
    (h : stepM lm r a x = some u) : numElements x ≤ u.length := by
  cases a with
  | zero => simp only [stepM, Option.some.injEq] at h; subst h; simp
  | fn f => exact stepFn_big hr h
  | mom m ps =>
    cases x with
    | num xs =>
      by_cases hp : ps = []
      · subst hp; simp [stepM, hr.emptyM] at h
      · have := hr.M _ _ _ h
        simp only [numElements] at this
        exact (numElementsL_fdd ps (.num xs) hp).trans this
    | fdd p x =>
      obtain ⟨b, _, h⟩ := bind_some h
      have hb := hr.M _ _ _ h; exact hb
    | tup xs =>
      simp only [stepM] at h
      split at h
      · cases h
      · obtain ⟨ls, hl, rfl⟩ := Option.map_eq_some_iff.1 h
        rw [sum_length_flatten]
        exact mapM_sum_big (s := fun l : List ℝ => l.length) (fun x l hx => hr.M _ _ _ hx) hl
  | add a b =>
    obtain ⟨u1, h1, h⟩ := bind_some h
    obtain ⟨v1, h2, h⟩ := bind_some h
    rw [zipCol_length h]; have hb := hr.M _ _ _ h1; exact hb
  | mul a b =>
    obtain ⟨u1, h1, h⟩ := bind_some h
    obtain ⟨v1, h2, h⟩ := bind_some h
    rw [zipCol_length h]; have hb := hr.M _ _ _ h1; exact hb
  | scale c a =>
    obtain ⟨B, hB, rfl⟩ := Option.map_eq_some_iff.1 h
    rw [List.length_map]; have hb := hr.M _ _ _ hB; exact hb
  | pre t a =>
    obtain ⟨x', h1, h⟩ := bind_some h
    rw [← InTr.apply_numElements h1]
    have hb := hr.M _ _ _ h; exact hb
  | diff d a =>
    cases x <;> simp only [stepM, reduceCtorEq] at h
    rw [mapM_length h]; rfl
  | post mi mz kzi z kzz noise y =>
    obtain ⟨v1, h1, h⟩ := bind_some h
    obtain ⟨K1, h2, h⟩ := bind_some h
    obtain ⟨z1, h3, h⟩ := bind_some h
    obtain ⟨B1, h4, h⟩ := bind_some h
    split at h
    · obtain ⟨t1, h5, h⟩ := bind_some h
      rw [zipCol_length h]; have hb := hr.M _ _ _ h1; exact hb
    · cases h
  | pseudo mi mz mx kzi kzz kzx kxx o =>
    obtain ⟨v1, h1, h⟩ := bind_some h
    obtain ⟨K1, h2, h⟩ := bind_some h
    obtain ⟨z1, h3, h⟩ := bind_some h
    obtain ⟨z2, h4, h⟩ := bind_some h
    obtain ⟨B1, h5, h⟩ := bind_some h
    split at h
    · obtain ⟨t1, h6, h⟩ := bind_some h
      rw [zipCol_length h]; have hb := hr.M _ _ _ h1; exact hb
    · cases h

theorem tupK_emptyR {r : Ev} {k : KExpr} : ∀ xs : List Input, tupK r k xs [] = none
  | [] => rfl
  | x :: xs => by
    unfold tupK
    rw [List.mapM_cons]
    rfl

/-- Results are at least as large as inputs. -/
theorem ev_big : ∀ n, (ev lm lk n).Big
  | 0 => ⟨fun _ _ _ h => (by cases h), fun _ _ _ _ h => (by cases h), fun _ _ => rfl, fun _ _ => rfl, fun _ _ => rfl⟩
  | n + 1 => by
    have ih := ev_big n
    refine ⟨fun a x u h => stepM_big ih h, fun k x y A h => ?_, fun m ps => ?_, fun k y => ?_, fun k x => ?_⟩
    · change stepK lm lk (ev lm lk n) k x y = some A at h
      unfold stepK at h
      split at h
      · exact tupK_big ih h
      · have := tupK_big ih h
        simpa only [numElementsL, numElements, Nat.add_zero] using this
      · have := tupK_big ih h
        simpa only [numElementsL, numElements, Nat.add_zero] using this
      · exact stepKAtom_big ih h
    · show stepM lm (ev lm lk n) (.mom m ps) (.tup []) = none
      simp [stepM]
    · cases y <;> rfl
    · cases x
      · exact tupK_emptyR _
      · exact tupK_emptyR _
      · exact tupK_emptyR _

end

end Stheno
