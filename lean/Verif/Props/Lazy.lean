import Verif.LazySpec

/-!
# Property C01: lazy lookup semantics

The specification (histories without a store) is in `Verif/LazySpec.lean`.
-/

namespace Stheno.LazySpec

variable {V B BU BL BR : Type}

/-- **C01, vectors.** Whatever calls were made before, a read returns the explicitly set value, else
the value of the oldest applicable rule, else fails. -/
theorem C01_vector (run : B → Nat → Option V) (h : List (VOp V B)) (i : Nat) :
    ((runVec run h).get run i).1 = specVec run h i := by
  obtain ⟨h1, h2⟩ := find_spec run h i
  unfold LazyVec.get
  split
  · next v hv => exact (h1 v hv).symm
  · next hn =>
    have hl : lastSet i h = none := by
      cases hl : lastSet i h with
      | none => rfl
      | some w => rw [hl] at h2; simp [hn] at h2
    rw [builder_eq]
    have : specVec run h i = (oldestRule i h).bind (fun b => run b i) := by simp [specVec, hl]
    rw [this]
    split
    · next hv => exact hv.symm
    · next hv => exact hv.symm

/-- **C01, vectors, repeated reads.** After a successful read of `i`, any further calls other than
assignments to `i` leave the answer unchanged. -/
theorem C01_vector_stable (run : B → Nat → Option V) (h k : List (VOp V B)) (i : Nat) (v : V)
    (hread : ((runVec run h).get run i).1 = some v)
    (hk : ∀ o ∈ k, ∀ w, o ≠ VOp.set i w) :
    ((runVec run (k ++ h)).get run i).1 = some v := by
  rw [C01_vector] at hread ⊢
  induction k with
  | nil => exact hread
  | cons o k ih =>
    have ih := ih (fun o ho => hk o (List.mem_cons_of_mem _ ho))
    cases o with
    | set i' w =>
      have hne : i ≠ i' := fun e => hk _ List.mem_cons_self w (by rw [e])
      simpa [specVec, lastSet, oldestRule, hne] using ih
    | addRule d b =>
      revert ih
      simp only [List.cons_append, specVec, lastSet, oldestRule]
      cases lastSet i (k ++ h) with
      | some w => simp
      | none => cases oldestRule i (k ++ h) <;> simp
    | get i' => simpa [specVec, lastSet, oldestRule] using ih

/-- A concrete history: rule for `{1,2}`, a read of `1`, a second rule also covering `1`, and an
assignment to `2`. The read of `1` keeps using the oldest rule, `2` has the assigned value, and `3`
fails. -/
example :
    let h : List (VOp Nat Nat) := [.set 2 7, .addRule [1, 2] 200, .get 1, .addRule [1, 2] 100]
    let run : Nat → Nat → Option Nat := fun b i => some (b + i)
    ((runVec run h).get run 1).1 = some 101 ∧ ((runVec run h).get run 2).1 = some 7 ∧
      ((runVec run h).get run 3).1 = none := by decide

/-- **C01, matrices.** Whatever calls were made before, a read returns the value known from the
newest assignment or earlier read, else the value of the applicable rule of highest priority, else
fails. -/
theorem C01_matrix (run : Build BU BL BR → Option V) (h : List (MOp V BU BL BR)) (i j : Nat) :
    ((runMat run h).get run i j).1 = specMat run h i j := by
  unfold LazyMat.get specMat
  rw [matFind, matBuilder]
  cases known run i j h with
  | some v => simp
  | none =>
    cases (applicable i j h).bind run <;> simp

/-- An index that was neither assigned nor read is answered by the rule of highest priority. -/
theorem C01_matrix_fresh (run : Build BU BL BR → Option V) (h : List (MOp V BU BL BR)) (i j : Nat)
    (hset : ∀ v, MOp.set i j v ∉ h) (hget : MOp.get i j ∉ h) :
    ((runMat run h).get run i j).1 = (applicable i j h).bind run := by
  rw [C01_matrix]
  suffices hk : known run i j h = none by simp [specMat, hk]
  induction h with
  | nil => rfl
  | cons o h ih =>
    have ih := ih (fun v hv => hset v (List.mem_cons_of_mem _ hv))
      (fun hv => hget (List.mem_cons_of_mem _ hv))
    cases o with
    | set i' j' v =>
      have : ¬ (i = i' ∧ j = j') := by
        rintro ⟨rfl, rfl⟩; exact hset v List.mem_cons_self
      simpa [known, this] using ih
    | get i' j' =>
      have : ¬ (i = i' ∧ j = j') := by
        rintro ⟨rfl, rfl⟩; exact hget List.mem_cons_self
      simpa [known, this] using ih
    | addRule => exact ih
    | addLeft => exact ih
    | addRight => exact ih

/-- **C01, matrices, repeated reads.** After a successful read of `(i, j)`, any further calls other
than assignments to `(i, j)` — including new rules of any kind — leave the answer unchanged. -/
theorem C01_matrix_stable (run : Build BU BL BR → Option V) (h k : List (MOp V BU BL BR))
    (i j : Nat) (v : V)
    (hread : ((runMat run h).get run i j).1 = some v)
    (hk : ∀ o ∈ k, ∀ w, o ≠ MOp.set i j w) :
    ((runMat run (k ++ MOp.get i j :: h)).get run i j).1 = some v := by
  rw [C01_matrix] at hread ⊢
  suffices hk : known run i j (k ++ MOp.get i j :: h) = some v by simp [specMat, hk]
  induction k with
  | nil => simpa [known, specMat] using hread
  | cons o k ih =>
    have ih := ih (fun o ho => hk o (List.mem_cons_of_mem _ ho))
    cases o with
    | set i' j' w =>
      have hne : ¬ (i = i' ∧ j = j') := by
        rintro ⟨rfl, rfl⟩; exact hk _ List.mem_cons_self w rfl
      simpa [known, hne] using ih
    | addRule => exact ih
    | addLeft => exact ih
    | addRight => exact ih
    | get i' j' =>
      by_cases hi : i = i' ∧ j = j'
      · simp [known, hi] at ih ⊢
        obtain ⟨rfl, rfl⟩ := hi
        simp [ih]
      · simpa [known, hi] using ih

/-- A concrete history: a right rule, a left rule and a universal rule all apply to `(1, 2)`; before
the universal rule was added, `(1, 2)` was read through the left rule and keeps that value, while
`(1, 3)`, read later, goes through the universal rule; `(5, 5)` fails. -/
example :
    let h : List (MOp Nat Nat Nat Nat) :=
      [.addRule [1, 2, 3] 300, .get 1 2, .addLeft 1 [2, 3] 200, .addRight 2 [1] 100]
    let run : Build Nat Nat Nat → Option Nat
      | .univ b i j => some (b + 10 * i + j)
      | .left b j => some (b + j)
      | .right b i => some (b + i)
    ((runMat run h).get run 1 2).1 = some 202 ∧ ((runMat run h).get run 1 3).1 = some 313 ∧
      ((runMat run h).get run 5 5).1 = none := by decide

end Stheno.LazySpec
