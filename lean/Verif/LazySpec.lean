import Verif.Lazy

/-!
# Specification of lazy containers, and lemmas

Independent specification: a *history* is the list of calls made on the container so far (newest
first). `specVec` / `specMat` read the answer off the history: the newest explicit assignment or
earlier answer for that index wins, and otherwise the oldest applicable rule present in the history.
There is no store in the specification.
-/

namespace Stheno.LazySpec

/-! ## Vectors -/

/-- Calls on a lazy vector. -/
inductive VOp (V B : Type) where
  | set (i : Nat) (v : V)
  | addRule (dom : List Nat) (b : B)
  | get (i : Nat)

variable {V B BU BL BR : Type}

/-- The container after a history (newest call first). -/
def runVec (run : B → Nat → Option V) : List (VOp V B) → LazyVec V B
  | [] => {}
  | .set i v :: h => (runVec run h).set i v
  | .addRule d b :: h => (runVec run h).addRule d b
  | .get i :: h => ((runVec run h).get run i).2

/-- Specification: the newest assignment to `i` in a history. -/
def lastSet (i : Nat) : List (VOp V B) → Option V
  | [] => none
  | .set i' v :: h => if i = i' then some v else lastSet i h
  | .addRule _ _ :: h => lastSet i h
  | .get _ :: h => lastSet i h

/-- Specification: the oldest rule of a history that applies to `i`. -/
def oldestRule (i : Nat) : List (VOp V B) → Option B
  | [] => none
  | .set _ _ :: h => oldestRule i h
  | .addRule d b :: h => (oldestRule i h).or (if i ∈ d then some b else none)
  | .get _ :: h => oldestRule i h

/-- Specification of a read: explicit value, else oldest rule, else failure. -/
def specVec (run : B → Nat → Option V) (h : List (VOp V B)) (i : Nat) : Option V :=
  (lastSet i h).or ((oldestRule i h).bind (fun b => run b i))

theorem builder_eq (run : B → Nat → Option V) (h : List (VOp V B)) (i : Nat) :
    (runVec run h).builder i = oldestRule i h := by
  induction h with
  | nil => rfl
  | cons o h ih =>
    cases o with
    | set i' v => simpa [runVec, LazyVec.set, LazyVec.builder, oldestRule] using ih
    | addRule d b =>
      simp only [runVec, LazyVec.addRule, LazyVec.builder, oldestRule, List.find?_append] at ih ⊢
      rw [← ih]
      cases h1 : List.find? (fun r => r.1.contains i) (runVec run h).rules <;>
        by_cases hd : i ∈ d <;> simp [hd]
    | get i' =>
      have : ((runVec run h).get run i').2.builder i = (runVec run h).builder i := by
        unfold LazyVec.get
        split
        · rfl
        · split <;> rfl
      simpa [runVec, oldestRule, this] using ih

theorem find_spec (run : B → Nat → Option V) (h : List (VOp V B)) (i : Nat) :
    (∀ v, (runVec run h).find i = some v → specVec run h i = some v) ∧
    (lastSet i h ≠ none → (runVec run h).find i = lastSet i h) := by
  induction h with
  | nil => simp [runVec, LazyVec.find, lastSet]
  | cons o h ih =>
    obtain ⟨ih1, ih2⟩ := ih
    cases o with
    | set i' v =>
      by_cases hi : i = i'
      · subst hi; simp [runVec, LazyVec.set, LazyVec.find, specVec, lastSet]
      · have hb : (i == i') = false := by simp [hi]
        simp only [runVec, LazyVec.set, LazyVec.find, List.lookup, hb, specVec, lastSet, hi,
          if_false, oldestRule]
        exact ⟨ih1, ih2⟩
    | addRule d b =>
      refine ⟨fun v hv => ?_, ih2⟩
      have h1 := ih1 v hv
      revert h1
      simp only [specVec, lastSet, oldestRule]
      cases lastSet i h with
      | some w => simp
      | none => cases oldestRule i h <;> simp
    | get i' =>
      have hspec : specVec run (.get i' :: h) i = specVec run h i := rfl
      have hls : lastSet i (.get i' :: h) = lastSet i h := rfl
      rw [hspec, hls]
      have key : (runVec run (.get i' :: h)).find i = (runVec run h).find i ∨
          (i = i' ∧ (runVec run h).find i = none ∧
            (runVec run (.get i' :: h)).find i = (oldestRule i h).bind (fun b => run b i)) := by
        simp only [runVec]
        unfold LazyVec.get
        split
        · left; rfl
        · next hn =>
          rw [builder_eq]
          split
          · next v hv =>
            by_cases hi : i = i'
            · subst hi
              right
              refine ⟨rfl, hn, ?_⟩
              simp [LazyVec.set, LazyVec.find, hv]
            · left
              have hb : (i == i') = false := by simp [hi]
              simp [LazyVec.set, LazyVec.find, List.lookup, hb]
          · left; rfl
      rcases key with hk | ⟨rfl, hn, hk⟩
      · rw [hk]; exact ⟨ih1, ih2⟩
      · rw [hk]
        cases hl : lastSet i h with
        | some w => simp [hl, hn] at ih2
        | none => simp [specVec, hl]

/-! ## Matrices -/

/-- Calls on a lazy matrix. -/
inductive MOp (V BU BL BR : Type) where
  | set (i j : Nat) (v : V)
  | addRule (dom : List Nat) (b : BU)
  | addLeft (i : Nat) (dom : List Nat) (b : BL)
  | addRight (j : Nat) (dom : List Nat) (b : BR)
  | get (i j : Nat)

/-- The container after a history (newest call first). -/
def runMat (run : Build BU BL BR → Option V) : List (MOp V BU BL BR) → LazyMat V BU BL BR
  | [] => {}
  | .set i j v :: h => (runMat run h).set i j v
  | .addRule d b :: h => (runMat run h).addRule d b
  | .addLeft i d b :: h => (runMat run h).addLeftRule i d b
  | .addRight j d b :: h => (runMat run h).addRightRule j d b
  | .get i j :: h => ((runMat run h).get run i j).2

/-- Oldest universal rule covering both indices. -/
def oldestU (i j : Nat) : List (MOp V BU BL BR) → Option (Build BU BL BR)
  | [] => none
  | .addRule d b :: h => (oldestU i j h).or (if i ∈ d ∧ j ∈ d then some (.univ b i j) else none)
  | _ :: h => oldestU i j h

/-- Oldest left rule for `i` covering `j`. -/
def oldestL (i j : Nat) : List (MOp V BU BL BR) → Option (Build BU BL BR)
  | [] => none
  | .addLeft i' d b :: h => (oldestL i j h).or (if i = i' ∧ j ∈ d then some (.left b j) else none)
  | _ :: h => oldestL i j h

/-- Oldest right rule for `j` covering `i`. -/
def oldestR (i j : Nat) : List (MOp V BU BL BR) → Option (Build BU BL BR)
  | [] => none
  | .addRight j' d b :: h => (oldestR i j h).or (if i ∈ d ∧ j = j' then some (.right b i) else none)
  | _ :: h => oldestR i j h

/-- Specification: universal before left before right, oldest first within each kind. -/
def applicable (i j : Nat) (h : List (MOp V BU BL BR)) : Option (Build BU BL BR) :=
  ((oldestU i j h).or (oldestL i j h)).or (oldestR i j h)

/-- Specification: the value known for `(i, j)` from the newest assignment or read. -/
def known (run : Build BU BL BR → Option V) (i j : Nat) : List (MOp V BU BL BR) → Option V
  | [] => none
  | .set i' j' v :: h => if i = i' ∧ j = j' then some v else known run i j h
  | .get i' j' :: h =>
    if i = i' ∧ j = j' then (known run i j h).or ((applicable i j h).bind run)
    else known run i j h
  | _ :: h => known run i j h

/-- Specification of a read. -/
def specMat (run : Build BU BL BR → Option V) (h : List (MOp V BU BL BR)) (i j : Nat) : Option V :=
  (known run i j h).or ((applicable i j h).bind run)

theorem get_rules (run : Build BU BL BR → Option V) (l : LazyMat V BU BL BR) (i j : Nat) :
    (l.get run i j).2.rules = l.rules ∧ (l.get run i j).2.leftRules = l.leftRules ∧
      (l.get run i j).2.rightRules = l.rightRules := by
  unfold LazyMat.get
  split
  · simp
  · split <;> simp [LazyMat.set]

theorem matU (run : Build BU BL BR → Option V) (h : List (MOp V BU BL BR)) (i j : Nat) :
    ((runMat run h).rules.find? (fun r => r.1.contains i && r.1.contains j)).map
      (fun r => Build.univ (BL := BL) (BR := BR) r.2 i j) = oldestU i j h := by
  induction h with
  | nil => rfl
  | cons o h ih =>
    cases o with
    | set => simpa [runMat, LazyMat.set, oldestU] using ih
    | addRule d b =>
      simp only [runMat, LazyMat.addRule, oldestU, List.find?_append] at ih ⊢
      rw [← ih]
      cases List.find? (fun r => r.1.contains i && r.1.contains j) (runMat run h).rules <;>
        by_cases hd : i ∈ d <;> by_cases hd' : j ∈ d <;> simp [hd, hd']
    | addLeft => simpa [runMat, LazyMat.addLeftRule, oldestU] using ih
    | addRight => simpa [runMat, LazyMat.addRightRule, oldestU] using ih
    | get i' j' =>
      simp only [runMat, (get_rules run _ i' j').1]
      simpa [oldestU] using ih

theorem matL (run : Build BU BL BR → Option V) (h : List (MOp V BU BL BR)) (i j : Nat) :
    ((runMat run h).leftRules.find? (fun r => i == r.1 && r.2.1.contains j)).map
      (fun r => Build.left (BU := BU) (BR := BR) r.2.2 j) = oldestL i j h := by
  induction h with
  | nil => rfl
  | cons o h ih =>
    cases o with
    | set => simpa [runMat, LazyMat.set, oldestL] using ih
    | addRule => simpa [runMat, LazyMat.addRule, oldestL] using ih
    | addLeft i' d b =>
      simp only [runMat, LazyMat.addLeftRule, oldestL, List.find?_append] at ih ⊢
      rw [← ih]
      cases List.find? (fun r => i == r.1 && r.2.1.contains j) (runMat run h).leftRules <;>
        by_cases hd : i = i' <;> by_cases hd' : j ∈ d <;> simp [hd, hd']
    | addRight => simpa [runMat, LazyMat.addRightRule, oldestL] using ih
    | get i' j' =>
      simp only [runMat, (get_rules run _ i' j').2.1]
      simpa [oldestL] using ih

theorem matR (run : Build BU BL BR → Option V) (h : List (MOp V BU BL BR)) (i j : Nat) :
    ((runMat run h).rightRules.find? (fun r => r.2.1.contains i && j == r.1)).map
      (fun r => Build.right (BU := BU) (BL := BL) r.2.2 i) = oldestR i j h := by
  induction h with
  | nil => rfl
  | cons o h ih =>
    cases o with
    | set => simpa [runMat, LazyMat.set, oldestR] using ih
    | addRule => simpa [runMat, LazyMat.addRule, oldestR] using ih
    | addLeft => simpa [runMat, LazyMat.addLeftRule, oldestR] using ih
    | addRight j' d b =>
      simp only [runMat, LazyMat.addRightRule, oldestR, List.find?_append] at ih ⊢
      rw [← ih]
      cases List.find? (fun r => r.2.1.contains i && j == r.1) (runMat run h).rightRules <;>
        by_cases hd : j = j' <;> by_cases hd' : i ∈ d <;> simp [hd, hd']
    | get i' j' =>
      simp only [runMat, (get_rules run _ i' j').2.2]
      simpa [oldestR] using ih

theorem matBuilder (run : Build BU BL BR → Option V) (h : List (MOp V BU BL BR)) (i j : Nat) :
    (runMat run h).builder i j = applicable i j h := by
  unfold applicable LazyMat.builder
  rw [← matU run, ← matL run, ← matR run]
  cases List.find? (fun r => r.1.contains i && r.1.contains j) (runMat run h).rules with
  | some r => simp
  | none =>
    cases List.find? (fun r => i == r.1 && r.2.1.contains j) (runMat run h).leftRules with
    | some r => simp
    | none =>
      cases List.find? (fun r => r.2.1.contains i && j == r.1) (runMat run h).rightRules <;> simp

theorem matFind (run : Build BU BL BR → Option V) (h : List (MOp V BU BL BR)) (i j : Nat) :
    (runMat run h).find i j = known run i j h := by
  induction h with
  | nil => rfl
  | cons o h ih =>
    cases o with
    | set i' j' v =>
      by_cases hi : i = i' ∧ j = j'
      · obtain ⟨rfl, rfl⟩ := hi; simp [runMat, LazyMat.set, LazyMat.find, known]
      · have hb : ((i, j) == (i', j')) = false := by simpa using hi
        simp only [runMat, LazyMat.set, LazyMat.find, List.lookup, hb, known, hi, if_false]
        exact ih
    | addRule => exact ih
    | addLeft => exact ih
    | addRight => exact ih
    | get i' j' =>
      have hset : ∀ v, ((runMat run h).set i' j' v).find i j =
          if i = i' ∧ j = j' then some v else (runMat run h).find i j := by
        intro v
        by_cases hi : i = i' ∧ j = j'
        · obtain ⟨rfl, rfl⟩ := hi; simp [LazyMat.set, LazyMat.find]
        · have hb : ((i, j) == (i', j')) = false := by simpa using hi
          simp [LazyMat.set, LazyMat.find, List.lookup, hb, hi]
      simp only [runMat, known]
      unfold LazyMat.get
      split
      · next v hv =>
        by_cases hi : i = i' ∧ j = j'
        · obtain ⟨rfl, rfl⟩ := hi
          rw [← ih, hv]; simp
        · simpa [hi] using ih
      · next hn =>
        rw [matBuilder]
        split
        · next v hv =>
          rw [hset]
          by_cases hi : i = i' ∧ j = j'
          · obtain ⟨rfl, rfl⟩ := hi
            rw [← ih, hn, hv]; simp
          · simpa [hi] using ih
        · next hv =>
          by_cases hi : i = i' ∧ j = j'
          · obtain ⟨rfl, rfl⟩ := hi
            rw [← ih, hn, hv]; simp
          · simpa [hi] using ih

end Stheno.LazySpec
