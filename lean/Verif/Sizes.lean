import Verif.Closed
import Verif.EvalDiag
import Verif.Fdd

/-!
# Sizes of means, kernels and noise matrices

`infer_size` determines the size of the noise matrix of an FDD from the dimensionality of the kernel. It is compared
with the sizes that means and kernels really have.
-/

namespace Stheno

open Matrix

/-- A function that has one value per row: not the mean of a process in `C`. -/
def Fn.Slim (C : PId → Prop) : Fn → Prop
  | .meanOf _ p => ¬ C p
  | _ => True

/-- Single-output kernels. Posteriors of single-output processes may be given observations of any process. -/
def KExpr.Slim (C : PId → Prop) : KExpr → Prop
  | .prim _ | .zero => True
  | .tprod f g => f.Slim C ∧ g.Slim C
  | .mok _ _ | .adk _ => False
  | .add a b | .mul a b => a.Slim C ∧ b.Slim C
  | .scale _ k | .rev k | .pre _ _ k | .diff _ _ k => k.Slim C
  | .post kij _ _ _ _ _ | .pseudo kij _ _ _ _ _ _ => kij.Slim C

/-- Single-output means. -/
def MExpr.Slim (C : PId → Prop) : MExpr → Prop
  | .zero => True
  | .fn f => f.Slim C
  | .mom _ _ => False
  | .add a b | .mul a b => a.Slim C ∧ b.Slim C
  | .scale _ a | .pre _ a | .diff _ a => a.Slim C
  | .post mi _ _ _ _ _ _ | .pseudo mi _ _ _ _ _ _ _ => mi.Slim C

/-- Kernels of cross processes of `d` single-output processes. -/
def KExpr.Broad (C : PId → Prop) (d : ℕ) : KExpr → Prop
  | .mok _ ps => ps.length = d ∧ ∀ p ∈ ps, ¬ C p
  | .post kij _ _ _ _ _ | .pseudo kij _ _ _ _ _ _ => kij.Broad C d
  | _ => False

/-- Means of cross processes of `d` single-output processes. -/
def MExpr.Broad (C : PId → Prop) (d : ℕ) : MExpr → Prop
  | .mom _ ps => ps.length = d ∧ ∀ p ∈ ps, ¬ C p
  | .post mi _ _ _ _ _ _ | .pseudo mi _ _ _ _ _ _ _ => mi.Broad C d
  | _ => False

mutual
/-- Inputs in which only single-output processes are evaluated. -/
def Input.Flat (C : PId → Prop) : Input → Prop
  | .num _ => True
  | .fdd p _ => ¬ C p
  | .tup xs => FlatL C xs
/-- All inputs of a tuple. -/
def FlatL (C : PId → Prop) : List Input → Prop
  | [] => True
  | x :: xs => x.Flat C ∧ FlatL C xs
end

mutual
/-- The number of values of `d` processes at an input. -/
def broadSize (d : ℕ) : Input → ℕ
  | .num xs => xs.length * d
  | .fdd _ x => numElements x
  | .tup xs => broadSizeL d xs
/-- The sum over a tuple. -/
def broadSizeL (d : ℕ) : List Input → ℕ
  | [] => 0
  | x :: xs => broadSize d x + broadSizeL d xs
end

theorem numElementsL_sum (xs : List Input) : (xs.map numElements).sum = numElementsL xs := by
  induction xs with
  | nil => rfl
  | cons x xs ih => rw [List.map_cons, List.sum_cons, ih]; rfl

theorem numElementsL_asTup (x : Input) : numElementsL (asTup x) = numElements x := by
  cases x <;> simp [asTup, numElementsL, numElements]

theorem broadSizeL_sum (d : ℕ) (xs : List Input) : (xs.map (broadSize d)).sum = broadSizeL d xs := by
  induction xs with
  | nil => rfl
  | cons x xs ih => rw [List.map_cons, List.sum_cons, ih]; rfl

theorem broadSizeL_asTup (d : ℕ) (x : Input) : broadSizeL d (asTup x) = broadSize d x := by
  cases x <;> simp [asTup, broadSizeL, broadSize]

theorem flatL_iff {C : PId → Prop} {xs : List Input} : FlatL C xs ↔ ∀ x ∈ xs, x.Flat C := by
  induction xs with
  | nil => simp [FlatL]
  | cons x xs ih => simp [FlatL, ih]

theorem flatL_asTup {C : PId → Prop} {x : Input} : FlatL C (asTup x) ↔ x.Flat C := by
  cases x <;> simp [asTup, FlatL, Input.Flat]

/-! ## Dimensionality -/

theorem mergeDims_eq_one {d : ℕ} (hd : d ≠ 0) {ds : List (Option ℕ)} (h : some d ∈ ds) :
    mergeDims ds = none ∨ mergeDims ds = some (some d) := by
  have hm : some d ∈ ds.filter (fun d => d ≠ none ∧ d ≠ some 0) := by
    rw [List.mem_filter]; exact ⟨h, by simpa using hd⟩
  unfold mergeDims
  cases hf : ds.filter (fun d => d ≠ none ∧ d ≠ some 0) with
  | nil => rw [hf] at hm; simp at hm
  | cons a l =>
    rw [hf] at hm
    by_cases ha : l.all (· = a)
    · right
      show (if l.all (· = a) then some a else none) = _
      rw [if_pos ha]
      rcases List.mem_cons.1 hm with rfl | hm
      · rfl
      · have := List.all_eq_true.1 ha _ hm
        rw [of_decide_eq_true this]
    · left
      show (if l.all (· = a) then some a else none) = _
      rw [if_neg ha]

/-- Merging numbers that are `None` or `d`. -/
theorem mergeDims_all {d : ℕ} {ds : List (Option ℕ)} (h : ∀ a ∈ ds, a = none ∨ a = some d) :
    mergeDims ds = some none ∨ mergeDims ds = some (some d) := by
  have hf' : ∀ a ∈ ds.filter (fun d => d ≠ none ∧ d ≠ some 0), a = some d := by
    intro a ha
    rw [List.mem_filter] at ha
    rcases h a ha.1 with rfl | rfl
    · simp at ha
    · rfl
  unfold mergeDims
  cases hf : ds.filter (fun d => d ≠ none ∧ d ≠ some 0) with
  | nil => exact .inl rfl
  | cons a l =>
    rw [hf] at hf'
    right
    have ha := hf' a (by simp)
    show (if l.all (· = a) then some a else none) = _
    rw [if_pos, ha]
    rw [List.all_eq_true]
    intro b hb
    rw [hf' b (by simp [hb]), ha]; simp

/-- Merging when a number `d` occurs and all others are `None` or `d`. -/
theorem mergeDims_some {d : ℕ} (hd : d ≠ 0) {ds : List (Option ℕ)} (h : some d ∈ ds)
    (ha : ∀ a ∈ ds, a = none ∨ a = some d) : mergeDims ds = some (some d) := by
  rcases mergeDims_all ha with h' | h'
  · rcases mergeDims_eq_one hd h with h'' | h'' <;> rw [h'] at h'' <;> cases h''
  · exact h'

/-- The kernel has dimensionality `d`, or finding it fails. -/
def Dim (d : ℕ) (k : KExpr) : Prop := dims k = none ∨ dims k = some (some d)

theorem Dim.get {d : ℕ} {k : KExpr} (h : Dim d k) {a : Option ℕ} (ha : dims k = some a) : a = some d := by
  rcases h with h | h <;> rw [ha] at h <;> cases h; rfl

theorem Dim.bind {d : ℕ} {o : Option (Option ℕ)} (h : ∀ a, o = some a → a = some d) : o = none ∨ o = some (some d) := by
  cases o with
  | none => exact .inl rfl
  | some a => rw [h a rfl]; exact .inr rfl

theorem mergeDims_get {d : ℕ} (hd : d ≠ 0) {ds : List (Option ℕ)} (h : some d ∈ ds) {a : Option ℕ}
    (ha : mergeDims ds = some a) : a = some d := by
  rcases mergeDims_eq_one hd h with h | h <;> rw [ha] at h <;> cases h; rfl

theorem Dim.post {d : ℕ} (hd : d ≠ 0) {kij kzi kzj kzz : KExpr} {z : Input} {noise : Mat} (h : Dim d kij) :
    Dim d (.post kij kzi kzj z kzz noise) := by
  refine Dim.bind fun a ha => ?_
  obtain ⟨x, hx, ha⟩ := bind_some ha
  obtain ⟨y, hy, ha⟩ := bind_some ha
  obtain ⟨z, hz, ha⟩ := bind_some ha
  exact mergeDims_get hd (by rw [h.get hx]; simp) ha

theorem Dim.pseudo {d : ℕ} (hd : d ≠ 0) {kij kzi kzj kzz kzx kxx : KExpr} {o : PseudoData} (h : Dim d kij) :
    Dim d (.pseudo kij kzi kzj kzz kzx kxx o) := by
  refine Dim.bind fun a ha => ?_
  obtain ⟨x, hx, ha⟩ := bind_some ha
  obtain ⟨y, hy, ha⟩ := bind_some ha
  obtain ⟨z, hz, ha⟩ := bind_some ha
  obtain ⟨b, hb, ha⟩ := bind_some ha
  have hb := mergeDims_get hd (by rw [h.get hx]; simp) hb
  obtain ⟨y, hy, ha⟩ := bind_some ha
  obtain ⟨z, hz, ha⟩ := bind_some ha
  obtain ⟨c, hc, ha⟩ := bind_some ha
  exact mergeDims_get hd (by rw [hb]; simp) ha

theorem Dim.two {d : ℕ} (hd : d ≠ 0) {a b : KExpr} (h : Dim d a) {o : Option ℕ}
    (ho : (do mergeDims [← dims a, ← dims b]) = some o) : o = some d := by
  obtain ⟨x, hx, ho⟩ := bind_some ho
  obtain ⟨y, hy, ho⟩ := bind_some ho
  exact mergeDims_get hd (by rw [h.get hx]; simp) ho

/-- A single-output kernel has dimensionality one. -/
theorem KExpr.Slim.dim {C : PId → Prop} : ∀ {k : KExpr}, k.Slim C → Dim 1 k
  | .prim _, _ | .zero, _ | .tprod _ _, _ => .inr rfl
  | .add a _, h => Dim.bind fun _ => Dim.two one_ne_zero (KExpr.Slim.dim (k := a) h.1)
  | .mul a _, h => Dim.bind fun _ => Dim.two one_ne_zero (KExpr.Slim.dim (k := a) h.1)
  | .scale _ k, h | .rev k, h | .pre _ _ k, h | .diff _ _ k, h => KExpr.Slim.dim (k := k) h
  | .post kij _ _ _ _ _, h => Dim.post one_ne_zero (KExpr.Slim.dim (k := kij) h)
  | .pseudo kij _ _ _ _ _ _, h => Dim.pseudo one_ne_zero (KExpr.Slim.dim (k := kij) h)

/-- The dimensionality of the kernel of a cross process is the number of processes. -/
theorem KExpr.Broad.dim {C : PId → Prop} {d : ℕ} (hd : d ≠ 0) : ∀ {k : KExpr}, k.Broad C d → Dim d k
  | .mok _ ps, h => .inr (by rw [← h.1]; rfl)
  | .post kij _ _ _ _ _, h => Dim.post hd (KExpr.Broad.dim hd (k := kij) h)
  | .pseudo kij _ _ _ _ _ _, h => Dim.pseudo hd (KExpr.Broad.dim hd (k := kij) h)

mutual
/-- What `infer_size` returns for kernels of dimensionality `d`. -/
theorem inferSize_broad {d : ℕ} {k : KExpr} (h : Dim d k) : ∀ {x : Input} {n : ℕ}, inferSize k x = some n → n = broadSize d x
  | .num xs, n, hn => by
    obtain ⟨a, ha, hn⟩ := bind_some (show (dims k).bind _ = some n from hn)
    rw [h.get ha] at hn
    cases hn; rfl
  | .fdd _ x, n, hn => by cases hn; rfl
  | .tup xs, n, hn => inferSizeL_broad h (xs := xs) hn
theorem inferSizeL_broad {d : ℕ} {k : KExpr} (h : Dim d k) :
    ∀ {xs : List Input} {n : ℕ}, inferSizeL k xs = some n → n = broadSizeL d xs
  | [], n, hn => by cases hn; rfl
  | x :: xs, n, hn => by
    obtain ⟨a, ha, hn⟩ := bind_some hn
    obtain ⟨b, hb, hn⟩ := bind_some hn
    cases hn
    rw [inferSize_broad h ha, inferSizeL_broad h hb]; rfl
end

mutual
theorem broadSize_one : ∀ x : Input, broadSize 1 x = numElements x
  | .num xs => by simp [broadSize, numElements]
  | .fdd _ x => rfl
  | .tup xs => broadSizeL_one xs
theorem broadSizeL_one : ∀ xs : List Input, broadSizeL 1 xs = numElementsL xs
  | [] => rfl
  | x :: xs => by simp only [broadSizeL, numElementsL, broadSize_one x, broadSizeL_one xs]
end

mutual
/-- `infer_size` returns if the dimensionality is known. -/
theorem inferSize_some {d : ℕ} {k : KExpr} (h : dims k = some (some d)) : ∀ x : Input, inferSize k x = some (broadSize d x)
  | .num xs => by show (dims k).bind _ = _; rw [h]; rfl
  | .fdd _ x => rfl
  | .tup xs => inferSizeL_some h xs
theorem inferSizeL_some {d : ℕ} {k : KExpr} (h : dims k = some (some d)) :
    ∀ xs : List Input, inferSizeL k xs = some (broadSizeL d xs)
  | [] => rfl
  | x :: xs => by
    show (inferSize k x).bind _ = _
    rw [inferSize_some h x]
    show (inferSizeL k xs).bind _ = _
    rw [inferSizeL_some h xs]; rfl
end

/-! ## Sizes of values -/

section
variable {lm : MId → PId → Option MExpr} {lk : MId → PId → PId → Option KExpr} {C : PId → Prop}

theorem stepFn_slim {r : Ev} (hlm : ∀ (m : MId) p a, ¬ C p → lm m p = some a → a.Slim C)
    (ih : ∀ a : MExpr, a.Slim C → ∀ x v, r.M a x = some v → v.length = numElements x) {f : Fn} (hf : f.Slim C) {x : Input}
    {v : List ℝ} (h : stepFn lm r f x = some v) : v.length = numElements x := by
  cases f with
  | user f =>
    cases x <;> simp only [stepFn, reduceCtorEq, Option.some.injEq] at h
    subst h; simp [numElements]
  | const c => cases (show some _ = some v from h); simp
  | meanOf m p =>
    obtain ⟨a, ha, h⟩ := bind_some h
    exact ih a (hlm m p a hf ha) x v h

/-- Single-output means and kernels have one row per element of the input. -/
theorem slim_size (hlm : ∀ (m : MId) p a, ¬ C p → lm m p = some a → a.Slim C) : ∀ n : ℕ,
    (∀ k : KExpr, k.Slim C → ∀ x y A, (ev lm lk n).K k x y = some A → A.r = numElements x ∧ A.c = numElements y) ∧
    (∀ a : MExpr, a.Slim C → ∀ x v, (ev lm lk n).M a x = some v → v.length = numElements x)
  | 0 => ⟨fun k _ x y A h => by simp [ev, Ev.bot] at h, fun a _ x v h => by simp [ev, Ev.bot] at h⟩
  | n + 1 => by
    obtain ⟨ihK, ihM⟩ := slim_size hlm n
    constructor
    · intro k hk x y A h
      by_cases hxy : x.IsAtom ∧ y.IsAtom
      · obtain ⟨hx, hy⟩ := hxy
        replace h : stepKAtom lm lk (ev lm lk n) k x y = some A := by
          cases x <;> cases y <;> first | exact h | exact hx.elim | exact hy.elim
        cases k with
        | prim k =>
          cases x <;> cases y <;> simp only [stepKAtom, reduceCtorEq, Option.some.injEq] at h
          subst h; exact ⟨rfl, rfl⟩
        | zero =>
          have h : some _ = some A := h
          cases h; exact ⟨rfl, rfl⟩
        | mok => exact hk.elim
        | adk k => exact hk.elim
        | add a b =>
          obtain ⟨B, hB, h⟩ := bind_some h
          obtain ⟨D, hD, h⟩ := bind_some h
          obtain ⟨_, _, rfl⟩ := Mat.add_some h
          have := ihK a hk.1 _ _ _ hB
          exact this
        | mul a b =>
          obtain ⟨B, hB, h⟩ := bind_some h
          obtain ⟨D, hD, h⟩ := bind_some h
          obtain ⟨_, _, rfl⟩ := Mat.mul_some h
          have := ihK a hk.1 _ _ _ hB
          exact this
        | scale c k =>
          obtain ⟨B, hB, rfl⟩ := Option.map_eq_some_iff.1 (show ((ev lm lk n).K k x y).map _ = some A from h)
          have := ihK k hk _ _ _ hB
          exact this
        | tprod f g =>
          obtain ⟨u, hu, h⟩ := bind_some h
          obtain ⟨v, hv, h⟩ := bind_some h
          cases h
          exact ⟨stepFn_slim hlm ihM hk.1 hu, stepFn_slim hlm ihM hk.2 hv⟩
        | rev k =>
          obtain ⟨B, hB, rfl⟩ := Option.map_eq_some_iff.1 (show ((ev lm lk n).K k y x).map _ = some A from h)
          exact (ihK k hk _ _ _ hB).symm
        | pre t u k =>
          obtain ⟨x', hx', h⟩ := bind_some h
          obtain ⟨y', hy', h⟩ := bind_some h
          have := ihK k hk _ _ _ h
          rwa [InTr.apply_numElements hx', InTr.apply_numElements hy'] at this
        | diff d e k =>
          cases x <;> cases y <;> simp only [stepKAtom, reduceCtorEq] at h
          unfold diffMat at h
          split at h
          · cases h; exact ⟨rfl, rfl⟩
          · cases h
        | post kij kzi kzj z kzz noise =>
          obtain ⟨B, hB, h⟩ := bind_some h
          obtain ⟨K, _, h⟩ := bind_some h
          obtain ⟨_, _, h⟩ := bind_some h
          obtain ⟨_, _, h⟩ := bind_some h
          obtain ⟨_, _, h⟩ := bind_some h
          obtain ⟨_, _, rfl⟩ := Mat.sub_some h
          have := ihK kij hk _ _ _ hB
          exact this
        | pseudo kij kzi kzj kzz kzx kxx o =>
          obtain ⟨B, hB, h⟩ := bind_some h
          obtain ⟨_, _, h⟩ := bind_some h
          obtain ⟨_, _, h⟩ := bind_some h
          obtain ⟨_, _, h⟩ := bind_some h
          obtain ⟨_, _, h⟩ := bind_some h
          obtain ⟨_, hP, h⟩ := bind_some h
          obtain ⟨_, _, h⟩ := bind_some h
          obtain ⟨_, _, rfl⟩ := Mat.add_some h
          obtain ⟨_, _, rfl⟩ := Mat.sub_some hP
          have := ihK kij hk _ _ _ hB
          exact this
      · rw [ev_K_tup hxy] at h
        obtain ⟨h1, h2⟩ := tupK_size (ihK k hk) h
        rw [numElementsL_sum, numElementsL_asTup] at h1 h2
        exact ⟨h1, h2⟩
    · intro a ha x v h
      replace h : stepM lm (ev lm lk n) a x = some v := h
      cases a with
      | zero => cases (show some _ = some v from h); simp
      | fn f => exact stepFn_slim hlm ihM ha h
      | mom m ps => exact ha.elim
      | add a b =>
        obtain ⟨u, hu, h⟩ := bind_some h
        obtain ⟨w, hw, h⟩ := bind_some h
        obtain ⟨hl, rfl⟩ := zipCol_some h
        rw [List.length_zipWith, ← hl, Nat.min_self]
        exact ihM a ha.1 _ _ hu
      | mul a b =>
        obtain ⟨u, hu, h⟩ := bind_some h
        obtain ⟨w, hw, h⟩ := bind_some h
        obtain ⟨hl, rfl⟩ := zipCol_some h
        rw [List.length_zipWith, ← hl, Nat.min_self]
        exact ihM a ha.1 _ _ hu
      | scale c a =>
        obtain ⟨u, hu, rfl⟩ := Option.map_eq_some_iff.1 (show ((ev lm lk n).M a x).map _ = some v from h)
        rw [List.length_map]
        exact ihM a ha _ _ hu
      | pre t a =>
        obtain ⟨x', hx', h⟩ := bind_some h
        rw [← InTr.apply_numElements hx']
        exact ihM a ha _ _ h
      | diff d a =>
        cases x <;> simp only [stepM, reduceCtorEq] at h
        exact mapM_length h
      | post mi mz kzi z kzz noise y =>
        obtain ⟨u, hu, h⟩ := bind_some h
        obtain ⟨_, _, h⟩ := bind_some h
        obtain ⟨_, _, h⟩ := bind_some h
        obtain ⟨_, _, h⟩ := bind_some h
        split at h
        · obtain ⟨_, _, h⟩ := bind_some h
          obtain ⟨hl, rfl⟩ := zipCol_some h
          rw [List.length_zipWith, ← hl, Nat.min_self]
          exact ihM mi ha _ _ hu
        · cases h
      | pseudo mi mz mx kzi kzz kzx kxx o =>
        obtain ⟨u, hu, h⟩ := bind_some h
        obtain ⟨_, _, h⟩ := bind_some h
        obtain ⟨_, _, h⟩ := bind_some h
        obtain ⟨_, _, h⟩ := bind_some h
        obtain ⟨_, _, h⟩ := bind_some h
        split at h
        · obtain ⟨_, _, h⟩ := bind_some h
          obtain ⟨hl, rfl⟩ := zipCol_some h
          rw [List.length_zipWith, ← hl, Nat.min_self]
          exact ihM mi ha _ _ hu
        · cases h

theorem flat_ps {ps : List PId} (h : ∀ p ∈ ps, ¬ C p) (xs : List Pt) : FlatL C (ps.map (.fdd · (.num xs))) := by
  rw [flatL_iff]
  intro x hx
  obtain ⟨p, hp, rfl⟩ := List.mem_map.1 hx
  exact h p hp

theorem broadSize_ps {ps : List PId} {d : ℕ} (xs : List Pt) :
    broadSizeL d (ps.map (.fdd · (.num xs))) = xs.length * ps.length := by
  induction ps with
  | nil => rfl
  | cons p ps ih =>
    rw [List.map_cons]
    show numElements (.num xs) + broadSizeL d (ps.map (.fdd · (.num xs))) = _
    rw [ih, List.length_cons, Nat.mul_succ, Nat.add_comm]; rfl

/-- Sizes of matrices of blocks, for blocks that satisfy a condition. -/
theorem tupK_size_on {r : Ev} {k : KExpr} {R : Input → ℕ} {xs ys : List Input}
    (hr : ∀ x ∈ xs, ∀ y ∈ ys, ∀ A, r.K k x y = some A → A.r = R x ∧ A.c = R y) {A : Mat}
    (h : tupK r k xs ys = some A) : A.r = (xs.map R).sum ∧ A.c = (ys.map R).sum := by
  classical
  let r' : Ev := ⟨r.M, fun k x y => if x ∈ xs ∧ y ∈ ys then r.K k x y else none, r.D⟩
  have e : tupK r' k xs ys = tupK r k xs ys := by
    unfold tupK
    congr 1
    refine mapM_congr fun x hx => ?_
    congr 1
    exact mapM_congr fun y hy => if_pos ⟨hx, hy⟩
  rw [← e] at h
  refine tupK_size (fun x y A hA => ?_) h
  change (if x ∈ xs ∧ y ∈ ys then r.K k x y else none) = some A at hA
  split at hA
  · next hh => exact hr x hh.1 y hh.2 A hA
  · cases hA

theorem mapM_sum {f : Input → Option (List ℝ)} {R : Input → ℕ} : ∀ {l : List Input} {vs : List (List ℝ)},
    (∀ x ∈ l, ∀ v, f x = some v → v.length = R x) → l.mapM f = some vs → vs.flatten.length = (l.map R).sum
  | [], vs, _, h => by simp at h; subst h; rfl
  | x :: l, vs, hf, h => by
    obtain ⟨b, bs, hb, hbs, rfl⟩ := mapM_cons_some h
    rw [List.flatten_cons, List.length_append, hf x (by simp) b hb, mapM_sum (fun x hx => hf x (by simp [hx])) hbs,
      List.map_cons, List.sum_cons]

/-- Means and kernels of cross processes have as many rows as the processes have values. -/
theorem broad_size (hlm : ∀ (m : MId) p a, ¬ C p → lm m p = some a → a.Slim C)
    (hlk : ∀ (m : MId) p q k, ¬ C p → ¬ C q → lk m p q = some k → k.Slim C) {d : ℕ} : ∀ n : ℕ,
    (∀ k : KExpr, k.Broad C d → ∀ x y A, x.Flat C → y.Flat C → (ev lm lk n).K k x y = some A →
      A.r = broadSize d x ∧ A.c = broadSize d y) ∧
    (∀ a : MExpr, a.Broad C d → ∀ x v, x.Flat C → (ev lm lk n).M a x = some v → v.length = broadSize d x)
  | 0 => ⟨fun k _ x y A _ _ h => by simp [ev, Ev.bot] at h, fun a _ x v _ h => by simp [ev, Ev.bot] at h⟩
  | n + 1 => by
    obtain ⟨ihK, ihM⟩ := broad_size hlm hlk (d := d) n
    constructor
    · intro k hk x y A fx fy h
      by_cases hxy : x.IsAtom ∧ y.IsAtom
      · obtain ⟨hx, hy⟩ := hxy
        replace h : stepKAtom lm lk (ev lm lk n) k x y = some A := by
          cases x <;> cases y <;> first | exact h | exact hx.elim | exact hy.elim
        cases k with
        | mok m ps =>
          have hps := fun xs => flat_ps (C := C) hk.2 xs
          have sps := fun xs => broadSize_ps (ps := ps) (d := d) xs
          rw [hk.1] at sps
          cases x with
          | num xs =>
            cases y with
            | num ys =>
              have := ihK (.mok m ps) hk (.tup (ps.map (.fdd · (.num xs)))) (.tup (ps.map (.fdd · (.num ys)))) A (hps xs) (hps ys) h
              exact ⟨this.1.trans (sps xs), this.2.trans (sps ys)⟩
            | fdd q y =>
              have := ihK (.mok m ps) hk (.tup (ps.map (.fdd · (.num xs)))) (.tup [.fdd q y]) A (hps xs) ⟨fy, trivial⟩ h
              exact ⟨this.1.trans (sps xs), this.2⟩
            | tup => exact hy.elim
          | fdd p x =>
            cases y with
            | num ys =>
              have := ihK (.mok m ps) hk (.tup [.fdd p x]) (.tup (ps.map (.fdd · (.num ys)))) A ⟨fx, trivial⟩ (hps ys) h
              exact ⟨this.1, this.2.trans (sps ys)⟩
            | fdd q y =>
              obtain ⟨k, hk, h⟩ := bind_some h
              exact (slim_size hlm n).1 k (hlk m p q k fx fy hk) _ _ _ h
            | tup => exact hy.elim
          | tup => exact hx.elim
        | post kij kzi kzj z kzz noise =>
          obtain ⟨B, hB, h⟩ := bind_some h
          obtain ⟨K, _, h⟩ := bind_some h
          obtain ⟨_, _, h⟩ := bind_some h
          obtain ⟨_, _, h⟩ := bind_some h
          obtain ⟨_, _, h⟩ := bind_some h
          obtain ⟨_, _, rfl⟩ := Mat.sub_some h
          have := ihK kij hk _ _ _ fx fy hB
          exact this
        | pseudo kij kzi kzj kzz kzx kxx o =>
          obtain ⟨B, hB, h⟩ := bind_some h
          obtain ⟨_, _, h⟩ := bind_some h
          obtain ⟨_, _, h⟩ := bind_some h
          obtain ⟨_, _, h⟩ := bind_some h
          obtain ⟨_, _, h⟩ := bind_some h
          obtain ⟨_, hP, h⟩ := bind_some h
          obtain ⟨_, _, h⟩ := bind_some h
          obtain ⟨_, _, rfl⟩ := Mat.add_some h
          obtain ⟨_, _, rfl⟩ := Mat.sub_some hP
          have := ihK kij hk _ _ _ fx fy hB
          exact this
        | _ => exact hk.elim
      · rw [ev_K_tup hxy] at h
        rw [← flatL_asTup, flatL_iff] at fx fy
        obtain ⟨h1, h2⟩ := tupK_size_on (fun x hx y hy A hA => ihK k hk x y A (fx x hx) (fy y hy) hA) h
        rw [broadSizeL_sum, broadSizeL_asTup] at h1 h2
        exact ⟨h1, h2⟩
    · intro a ha x v fx h
      replace h : stepM lm (ev lm lk n) a x = some v := h
      cases a with
      | mom m ps =>
        cases x with
        | num xs =>
          have := ihM (.mom m ps) ha (.tup (ps.map (.fdd · (.num xs)))) v (flat_ps (C := C) ha.2 xs) h
          rw [this, ← ha.1]; exact broadSize_ps xs
        | fdd p x =>
          obtain ⟨b, hb, h⟩ := bind_some h
          exact (slim_size hlm n).2 b (hlm m p b fx hb) _ _ h
        | tup xs =>
          replace h : (if xs = [] then none else (xs.mapM ((ev lm lk n).M (.mom m ps))).map List.flatten) = some v := h
          split at h
          · cases h
          · obtain ⟨vs, hvs, rfl⟩ := Option.map_eq_some_iff.1 h
            rw [mapM_sum (R := broadSize d) (fun x hx v hv => ihM _ ha x v (flatL_iff.1 fx x hx) hv) hvs, broadSizeL_sum]
            rfl
      | post mi mz kzi z kzz noise y =>
        obtain ⟨u, hu, h⟩ := bind_some h
        obtain ⟨_, _, h⟩ := bind_some h
        obtain ⟨_, _, h⟩ := bind_some h
        obtain ⟨_, _, h⟩ := bind_some h
        split at h
        · obtain ⟨_, _, h⟩ := bind_some h
          obtain ⟨hl, rfl⟩ := zipCol_some h
          rw [List.length_zipWith, ← hl, Nat.min_self]
          exact ihM mi ha _ _ fx hu
        · cases h
      | pseudo mi mz mx kzi kzz kzx kxx o =>
        obtain ⟨u, hu, h⟩ := bind_some h
        obtain ⟨_, _, h⟩ := bind_some h
        obtain ⟨_, _, h⟩ := bind_some h
        obtain ⟨_, _, h⟩ := bind_some h
        obtain ⟨_, _, h⟩ := bind_some h
        split at h
        · obtain ⟨_, _, h⟩ := bind_some h
          obtain ⟨hl, rfl⟩ := zipCol_some h
          rw [List.length_zipWith, ← hl, Nat.min_self]
          exact ihM mi ha _ _ fx hu
        · cases h
      | _ => exact ha.elim

end

/-! ## Kernels and means in the tables -/

section
variable {C : PId → Prop}

theorem slim_closed : Closed (Fn.Slim C) (KExpr.Slim C) (KExpr.Slim C) fun _ => True where
  one _ := trivial
  user h := h
  p := ⟨trivial, fun ha hb => ⟨ha, hb⟩, fun _ h => h, fun h => h, fun _ _ h => h, fun _ _ h => h, fun hf hg h => ⟨⟨hf, hg⟩, h⟩⟩
  mul ha hb := ⟨ha, hb⟩
  q := ⟨trivial, fun _ _ => trivial, fun _ _ => trivial, fun _ => trivial, fun _ _ _ => trivial, fun _ _ _ => trivial,
    fun _ _ _ => trivial⟩
  sub _ := trivial
  adk := trivial

theorem slim_mclosed : MClosed (Fn.Slim C) (MExpr.Slim C) (MExpr.Slim C) where
  user h := h
  fn h := h
  add ha hb := ⟨ha, hb⟩
  mul ha hb := ⟨ha, hb⟩
  scale _ h := h
  pre _ h := h
  diff _ h := h
  post _ _ _ _ _ _ h := h
  pseudo _ _ _ _ _ _ _ h := h

/-- What the kernels of a posterior consist of. -/
theorem obsKernel_cases {lk : PId → PId → Option KExpr} {obs : Obs} {i j : PId} {k : KExpr}
    (h : obsKernel lk none obs i j = some k) : lk i j = some k ∨
      (∃ p kij kzi kzj z kzz noise y, obs = .exact p z noise y ∧ lk i j = some kij ∧ lk p i = some kzi ∧ lk p j = some kzj ∧
        k = .post kij kzi kzj z kzz noise) ∨
      (∃ pu p kij kzi kzj kzz kzx kxx o, obs = .pseudo pu p o ∧ lk i j = some kij ∧ lk pu i = some kzi ∧ lk pu j = some kzj ∧
        k = .pseudo kij kzi kzj kzz kzx kxx o) := by
  cases obs with
  | exact p x noise y =>
    unfold obsKernel at h
    simp only at h
    split at h
    · exact .inl h
    · obtain ⟨a, ha, h⟩ := bind_some h
      obtain ⟨b, hb, h⟩ := bind_some h
      obtain ⟨c, hc, h⟩ := bind_some h
      obtain ⟨e, he, h⟩ := bind_some h
      cases h
      exact .inr (.inl ⟨_, _, _, _, _, _, _, _, rfl, ha, hb, hc, rfl⟩)
  | pseudo pu p o =>
    unfold obsKernel at h
    simp only at h
    obtain ⟨a, ha, h⟩ := bind_some h
    obtain ⟨b, hb, h⟩ := bind_some h
    obtain ⟨c, hc, h⟩ := bind_some h
    obtain ⟨e, he, h⟩ := bind_some h
    obtain ⟨f, hf, h⟩ := bind_some h
    split at h
    · obtain ⟨g, hg, h⟩ := bind_some h
      cases h
      exact .inr (.inr ⟨_, _, _, _, _, _, _, _, _, rfl, ha, hb, hc, rfl⟩)
    · cases h

theorem obsMean_cases {lm : PId → Option MExpr} {lk : PId → PId → Option KExpr} {obs : Obs} {i : PId} {a : MExpr}
    (h : obsMean lm lk none obs i = some a) : lm i = some a ∨ ∃ mi, lm i = some mi ∧
      ((∃ mz kzi z kzz noise y, a = .post mi mz kzi z kzz noise y) ∨
        ∃ mz mx kzi kzz kzx kxx o, a = .pseudo mi mz mx kzi kzz kzx kxx o) := by
  cases obs with
  | exact p x noise y =>
    unfold obsMean at h
    simp only at h
    split at h
    · exact .inl h
    · obtain ⟨b, hb, h⟩ := bind_some h
      obtain ⟨_, _, h⟩ := bind_some h
      obtain ⟨_, _, h⟩ := bind_some h
      obtain ⟨_, _, h⟩ := bind_some h
      cases h
      exact .inr ⟨b, hb, .inl ⟨_, _, _, _, _, _, rfl⟩⟩
  | pseudo pu p o =>
    unfold obsMean at h
    simp only at h
    obtain ⟨b, hb, h⟩ := bind_some h
    obtain ⟨_, _, h⟩ := bind_some h
    obtain ⟨_, _, h⟩ := bind_some h
    obtain ⟨_, _, h⟩ := bind_some h
    obtain ⟨_, _, h⟩ := bind_some h
    split at h
    · obtain ⟨_, _, h⟩ := bind_some h
      obtain ⟨_, _, h⟩ := bind_some h
      cases h
      exact .inr ⟨b, hb, .inr ⟨_, _, _, _, _, _, _, rfl⟩⟩
    · cases h

/-- Definitions that can be told apart: single-output processes outside `C`, cross processes in `C`. -/
abbrev Sorted (C : PId → Prop) (e : PId × ProcDef) : Prop := Shaped C (Fn.Slim C) (KExpr.Slim C) (MExpr.Slim C) e

variable {ms : List AMeas} (h : ∀ (m : MId) (a : AMeas), ms[m]? = some a → ∀ e ∈ a.defs, Sorted C e)
include h

theorem specKAux_slim (n : ℕ) (m : MId) : Fine C (KExpr.Slim C) (fun _ => True) (specKAux ms n m) := by
  refine specKAux_fine (ok := fun _ => True) slim_closed h (fun m a u lk _ _ _ hl => ?_) n m trivial
  refine ⟨fun {i j k} hi hj hk => ?_, fun _ _ _ => trivial, fun _ _ _ => trivial⟩
  rcases obsKernel_cases hk with hk | ⟨_, _, _, _, _, _, _, _, _, hk', _, _, rfl⟩ |
    ⟨_, _, _, _, _, _, _, _, _, _, hk', _, _, rfl⟩
  · exact (hl trivial).nn hi hj hk
  · have := (hl trivial).nn hi hj hk'
    exact this
  · have := (hl trivial).nn hi hj hk'
    exact this

theorem specMAux_slim (n : ℕ) (m : MId) {i : PId} {a : MExpr} (hi : ¬ C i) (ha : specMAux ms n m i = some a) : a.Slim C :=
  specMAux_made slim_mclosed (fun m a ha e he => (h m a ha e he).1) n m i a hi ha

/-- `D` counts the outputs of cross processes. -/
def Counts (D : PId → ℕ) (e : PId × ProcDef) : Prop :=
  match e.2 with
  | .cross ps => D e.1 = ps.length
  | .copy p => D e.1 = D p
  | _ => True

variable {D : PId → ℕ} (hD : ∀ (m : MId) (a : AMeas), ms[m]? = some a → ∀ e ∈ a.defs, Counts D e)
include hD

theorem specKAux_broad : ∀ (n : ℕ) (m : MId) {i : PId} {k : KExpr}, C i → specKAux ms n m i i = some k →
    D i ≠ 0 ∧ k.Broad C (D i)
  | 0, m, i, k, _, hk => by cases hk
  | n + 1, m, i, k, hi, hk => by
    have step : ∀ {base : PId → PId → Option KExpr} {basePs : List PId},
        (∀ {i k}, C i → base i i = some k → D i ≠ 0 ∧ k.Broad C (D i)) → ∀ {es : List (PId × ProcDef)},
        (∀ e ∈ es, Sorted C e) → (∀ e ∈ es, Counts D e) → ∀ {i k}, C i → lookKDefs m base basePs es i i = some k → D i ≠ 0 ∧ k.Broad C (D i) := by
      intro base basePs hb es
      induction es with
      | nil =>
        intro _ _ i k hi hk
        unfold lookKDefs at hk
        split at hk
        · exact hb hi hk
        · cases hk
      | cons e es ih =>
        intro he hn i k hi hk
        obtain ⟨p, d⟩ := e
        unfold lookKDefs at hk
        split at hk
        · next e =>
          subst e
          have hw := (he (i, d) (List.mem_cons_self ..)).2 hi
          cases d with
          | cross ps =>
            cases hk
            have := hn (i, .cross ps) (List.mem_cons_self ..)
            exact ⟨by rw [show D i = ps.length from this]; simpa using hw.1, this.symm, hw.2⟩
          | copy p =>
            rw [show D i = D p from hn (i, .copy p) (List.mem_cons_self ..)]
            exact ih (fun e hm => he e (List.mem_cons_of_mem _ hm)) (fun e hm => hn e (List.mem_cons_of_mem _ hm)) hw hk
          | _ => exact hw.elim
        · exact ih (fun e hm => he e (List.mem_cons_of_mem _ hm)) (fun e hm => hn e (List.mem_cons_of_mem _ hm)) hi hk
    unfold specKAux at hk
    split at hk
    · cases hk
    · next a ha =>
      refine step (fun {i k} hi hk => ?_) (h m a ha) (hD m a ha) hi hk
      split at hk
      · cases hk
      · next u hu =>
        rcases obsKernel_cases hk with hk | ⟨_, _, _, _, _, _, _, _, _, hk', _, _, rfl⟩ |
          ⟨_, _, _, _, _, _, _, _, _, _, hk', _, _, rfl⟩
        · exact specKAux_broad n u.prior hi hk
        · have := specKAux_broad n u.prior hi hk'
          exact this
        · have := specKAux_broad n u.prior hi hk'
          exact this

theorem specMAux_broad : ∀ (n : ℕ) (m : MId) {i : PId} {a : MExpr}, C i → specMAux ms n m i = some a →
    D i ≠ 0 ∧ a.Broad C (D i)
  | 0, m, i, k, _, hk => by cases hk
  | n + 1, m, i, k, hi, hk => by
    have step : ∀ {base : PId → Option MExpr} {basePs : List PId},
        (∀ {i k}, C i → base i = some k → D i ≠ 0 ∧ k.Broad C (D i)) → ∀ {es : List (PId × ProcDef)},
        (∀ e ∈ es, Sorted C e) → (∀ e ∈ es, Counts D e) → ∀ {i k}, C i → lookMDefs m base basePs es i = some k → D i ≠ 0 ∧ k.Broad C (D i) := by
      intro base basePs hb es
      induction es with
      | nil =>
        intro _ _ i k hi hk
        unfold lookMDefs at hk
        split at hk
        · exact hb hi hk
        · cases hk
      | cons e es ih =>
        intro he hn i k hi hk
        obtain ⟨p, d⟩ := e
        unfold lookMDefs at hk
        split at hk
        · next e =>
          subst e
          have hw := (he (i, d) (List.mem_cons_self ..)).2 hi
          cases d with
          | cross ps =>
            cases hk
            have := hn (i, .cross ps) (List.mem_cons_self ..)
            exact ⟨by rw [show D i = ps.length from this]; simpa using hw.1, this.symm, hw.2⟩
          | copy p =>
            rw [show D i = D p from hn (i, .copy p) (List.mem_cons_self ..)]
            exact ih (fun e hm => he e (List.mem_cons_of_mem _ hm)) (fun e hm => hn e (List.mem_cons_of_mem _ hm)) hw hk
          | _ => exact hw.elim
        · exact ih (fun e hm => he e (List.mem_cons_of_mem _ hm)) (fun e hm => hn e (List.mem_cons_of_mem _ hm)) hi hk
    unfold specMAux at hk
    split at hk
    · cases hk
    · next a ha =>
      refine step (fun {i k} hi hk => ?_) (h m a ha) (hD m a ha) hi hk
      split at hk
      · cases hk
      · next u hu =>
        rcases obsMean_cases hk with hk | ⟨mi, hmi, ⟨_, _, _, _, _, _, rfl⟩ | ⟨_, _, _, _, _, _, _, rfl⟩⟩
        · exact specMAux_broad n u.prior hi hk
        · have := specMAux_broad n u.prior hi hmi
          exact this
        · have := specMAux_broad n u.prior hi hmi
          exact this

end

/-! ## Known dimensionality -/

/-- Kernels between a single-output process and a cross process: the dimensionality is `None` or one. -/
def Vague (k : KExpr) : Prop := dims k = some none ∨ dims k = some (some 1)

theorem two_dims {a b : KExpr} {x y : Option ℕ} (ha : dims a = some x) (hb : dims b = some y) :
    (do mergeDims [← dims a, ← dims b]) = mergeDims [x, y] := by
  rw [ha, hb]; rfl

theorem three_dims {a b c : KExpr} {x y z : Option ℕ} (ha : dims a = some x) (hb : dims b = some y) (hc : dims c = some z) :
    (do mergeDims [← dims a, ← dims b, ← dims c]) = mergeDims [x, y, z] := by
  rw [ha, hb, hc]; rfl

theorem Vague.get {k : KExpr} (h : Vague k) : ∃ a, dims k = some a ∧ (a = none ∨ a = some 1) := by
  rcases h with h | h
  · exact ⟨_, h, .inl rfl⟩
  · exact ⟨_, h, .inr rfl⟩

theorem Vague.add {a b : KExpr} (ha : Vague a) (hb : Vague b) : Vague (.add a b) := by
  obtain ⟨x, ha, hx⟩ := ha.get
  obtain ⟨y, hb, hy⟩ := hb.get
  unfold Vague
  simp only [dims, two_dims ha hb]
  exact mergeDims_all (by simpa using ⟨hx, hy⟩)

theorem dims_closed : Closed (fun _ => True) (fun k => dims k = some (some 1)) (fun k => dims k = some (some 1)) Vague where
  one _ := trivial
  user h := h
  p := by
    refine ⟨rfl, fun ha hb => ?_, fun _ h => h, fun h => h, fun _ _ h => h, fun _ _ h => h, fun _ _ h => ?_⟩
    · simp only [dims, two_dims ha hb]; rfl
    · simp only [dims] at h ⊢; rw [h]; rfl
  mul ha hb := by simp only [dims, two_dims ha hb]; rfl
  q := by
    refine ⟨.inr rfl, fun ha hb => ha.add hb, fun _ h => h, fun h => h, fun _ _ h => h, fun _ _ h => h, fun {a f g} _ _ h => ?_⟩
    obtain ⟨x, hx, hx'⟩ := h.get
    have e : dims (.mul (.tprod f g) a) = mergeDims [some 1, x] := two_dims (a := .tprod f g) rfl hx
    unfold Vague
    rw [e]
    exact mergeDims_all (d := 1) (by simpa using hx')
  sub h := .inr h
  adk := .inl rfl

theorem dims_closed' : Closed (fun _ => True) (fun k => dims k = some (some 1)) (fun k => dims k = some (some 1))
    (fun _ => True) where
  one _ := trivial
  user h := h
  p := dims_closed.p
  mul := dims_closed.mul
  q := ⟨trivial, fun _ _ => trivial, fun _ _ => trivial, fun _ => trivial, fun _ _ _ => trivial, fun _ _ _ => trivial,
    fun _ _ _ => trivial⟩
  sub _ := trivial
  adk := trivial

theorem dims_post {kij kzi kzj kzz : KExpr} {z : Input} {noise : Mat} (h : dims kij = some (some 1)) (hi : Vague kzi)
    (hj : Vague kzj) : dims (.post kij kzi kzj z kzz noise) = some (some 1) := by
  obtain ⟨x, hx, hx'⟩ := hi.get
  obtain ⟨y, hy, hy'⟩ := hj.get
  simp only [dims, three_dims h hx hy]
  exact mergeDims_some one_ne_zero (by simp) (by simpa using ⟨hx', hy'⟩)

theorem dims_pseudo {kij kzi kzj kzz kzx kxx : KExpr} {o : PseudoData} (h : dims kij = some (some 1)) (hi : Vague kzi)
    (hj : Vague kzj) : dims (.pseudo kij kzi kzj kzz kzx kxx o) = some (some 1) := by
  obtain ⟨x, hx, hx'⟩ := hi.get
  obtain ⟨y, hy, hy'⟩ := hj.get
  have e1 : mergeDims [some 1, x, y] = some (some 1) :=
    mergeDims_some one_ne_zero (by simp) (by simpa using ⟨hx', hy'⟩)
  have e2 := mergeDims_all (d := 1) (ds := [x, y]) (by simpa using ⟨hx', hy'⟩)
  have e : dims (.pseudo kij kzi kzj kzz kzx kxx o) = (mergeDims [x, y]).bind fun b => mergeDims [some 1, b] := by
    simp only [dims, h, hx, hy, Option.bind_eq_bind, Option.bind_some, e1]
  rw [e]
  rcases e2 with e2 | e2 <;> rw [e2] <;> rfl

theorem Vague.post {kij kzi kzj kzz : KExpr} {z : Input} {noise : Mat} (h : Vague kij) (hi : Vague kzi) (hj : Vague kzj) :
    Vague (.post kij kzi kzj z kzz noise) := by
  obtain ⟨w, hw, hw'⟩ := h.get
  obtain ⟨x, hx, hx'⟩ := hi.get
  obtain ⟨y, hy, hy'⟩ := hj.get
  unfold Vague
  simp only [dims, three_dims hw hx hy]
  exact mergeDims_all (by simpa using ⟨hw', hx', hy'⟩)

theorem Vague.pseudo {kij kzi kzj kzz kzx kxx : KExpr} {o : PseudoData} (h : Vague kij) (hi : Vague kzi) (hj : Vague kzj) :
    Vague (.pseudo kij kzi kzj kzz kzx kxx o) := by
  obtain ⟨w, hw, hw'⟩ := h.get
  obtain ⟨x, hx, hx'⟩ := hi.get
  obtain ⟨y, hy, hy'⟩ := hj.get
  have e1 := mergeDims_all (d := 1) (ds := [w, x, y]) (by simpa using ⟨hw', hx', hy'⟩)
  have e2 := mergeDims_all (d := 1) (ds := [x, y]) (by simpa using ⟨hx', hy'⟩)
  have e : dims (.pseudo kij kzi kzj kzz kzx kxx o) =
      (mergeDims [w, x, y]).bind fun a => (mergeDims [x, y]).bind fun b => mergeDims [a, b] := by
    simp only [dims, hw, hx, hy, Option.bind_eq_bind, Option.bind_some]
  unfold Vague
  rw [e]
  rcases e1 with e1 | e1 <;> rcases e2 with e2 | e2 <;> rw [e1, e2]
  · exact .inl rfl
  all_goals exact .inr rfl

/-- The process whose values enter the posterior: the observed process, or the process of the inducing points. -/
def Obs.proc : Obs → PId
  | .exact p _ _ _ => p
  | .pseudo pu _ _ => pu

/-- Definitions for which the dimensionality of all kernels is known. -/
abbrev Known (C : PId → Prop) (e : PId × ProcDef) : Prop :=
  Shaped C (fun _ => True) (fun k => dims k = some (some 1)) (fun _ => True) e

/-- Measures that were conditioned on observations of single-output processes only. -/
inductive Open (C : PId → Prop) (ms : List AMeas) : MId → Prop where
  | prior {m a} : ms[m]? = some a → a.base = none → Open C ms m
  | posterior {m a u} : ms[m]? = some a → a.base = some u → ¬ C u.obs.proc → Open C ms u.prior → Open C ms m

section
variable {C : PId → Prop} {ms : List AMeas} (h : ∀ (m : MId) (a : AMeas), ms[m]? = some a → ∀ e ∈ a.defs, Known C e)
include h

theorem specKAux_open (n : ℕ) {m : MId} (hm : Open C ms m) :
    Fine C (fun k => dims k = some (some 1)) Vague (specKAux ms n m) := by
  refine specKAux_fine (ok := Open C ms) dims_closed h (fun m a u lk hm ha hu hl => ?_) n m hm
  cases hm with
  | prior ha' hb => rw [ha] at ha'; cases ha'; rw [hu] at hb; cases hb
  | posterior ha' hu' hc ho =>
    rw [ha] at ha'; cases ha'
    rw [hu] at hu'; cases hu'
    have hl := hl ho
    refine ⟨fun {i j k} hi hj hk => ?_, fun {i j k} hi hj hk => ?_, fun {i j k} hi hj hk => ?_⟩
    · rcases obsKernel_cases hk with hk | ⟨p, _, _, _, _, _, _, _, e, hk', h1, h2, rfl⟩ |
        ⟨p, _, _, _, _, _, _, _, _, e, hk', h1, h2, rfl⟩
      · exact hl.nn hi hj hk
      · rw [e] at hc; exact dims_post (hl.nn hi hj hk') (.inr (hl.nn hc hi h1)) (.inr (hl.nn hc hj h2))
      · rw [e] at hc; exact dims_pseudo (hl.nn hi hj hk') (.inr (hl.nn hc hi h1)) (.inr (hl.nn hc hj h2))
    · rcases obsKernel_cases hk with hk | ⟨p, _, _, _, _, _, _, _, e, hk', h1, h2, rfl⟩ |
        ⟨p, _, _, _, _, _, _, _, _, e, hk', h1, h2, rfl⟩
      · exact hl.nc hi hj hk
      · rw [e] at hc; exact (hl.nc hi hj hk').post (.inr (hl.nn hc hi h1)) (hl.nc hc hj h2)
      · rw [e] at hc; exact (hl.nc hi hj hk').pseudo (.inr (hl.nn hc hi h1)) (hl.nc hc hj h2)
    · rcases obsKernel_cases hk with hk | ⟨p, _, _, _, _, _, _, _, e, hk', h1, h2, rfl⟩ |
        ⟨p, _, _, _, _, _, _, _, _, e, hk', h1, h2, rfl⟩
      · exact hl.cn hi hj hk
      · rw [e] at hc; exact (hl.cn hi hj hk').post (hl.nc hc hi h1) (.inr (hl.nn hc hj h2))
      · rw [e] at hc; exact (hl.cn hi hj hk').pseudo (hl.nc hc hi h1) (.inr (hl.nn hc hj h2))

/-- One observation of a cross process leaves the dimensionalities of single-output processes known. -/
theorem specKAux_once (n : ℕ) {m : MId} {a : AMeas} {u : URule} (ha : ms[m]? = some a) (hu : a.base = some u)
    (hm : Open C ms u.prior) {i j : PId} {k : KExpr} (hi : ¬ C i) (hj : ¬ C j) (hk : specKAux ms n m i j = some k) :
    dims k = some (some 1) := by
  cases n with
  | zero => cases hk
  | succ n =>
    unfold specKAux at hk
    rw [ha] at hk
    refine (lookKDefs_fine dims_closed' ?_ (h m a ha)).nn hi hj hk
    have hl := specKAux_open h n hm
    rw [hu]
    refine ⟨fun {i j k} hi hj hk => ?_, fun _ _ _ => trivial, fun _ _ _ => trivial⟩
    have hv : ∀ {p i k}, ¬ C i → specKAux ms n u.prior p i = some k → Vague k := by
      intro p i k hi hk
      by_cases hp : C p
      · exact hl.cn hp hi hk
      · exact .inr (hl.nn hp hi hk)
    rcases obsKernel_cases hk with hk | ⟨p, _, _, _, _, _, _, _, e, hk', h1, h2, rfl⟩ |
      ⟨p, _, _, _, _, _, _, _, _, e, hk', h1, h2, rfl⟩
    · exact hl.nn hi hj hk
    · exact dims_post (hl.nn hi hj hk') (hv hi h1) (hv hj h2)
    · exact dims_pseudo (hl.nn hi hj hk') (hv hi h1) (hv hj h2)

end

end Stheno
