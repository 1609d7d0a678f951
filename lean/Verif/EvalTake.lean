import Verif.EvalBig
import Verif.EvalDiag

/-!
# Evaluation at some of the elements of an input

Means and kernels have as values at some elements of an input the corresponding entries of the values at the input, if
there is one value per element. This holds for all expressions, whatever they look up.
-/

namespace Stheno

open Mat Matrix

/-- The entries at the given positions. -/
def entries {α : Type} (d : α) (v : List α) (is : List ℕ) : List α := is.map (v.getD · d)

/-- The submatrix at the given positions. -/
def Mat.sub2 (A : Mat) (is js : List ℕ) : Mat := ⟨is.length, js.length, fun i j => A.e (is.getD i 0) (js.getD j 0)⟩

mutual
/-- `x'` has the elements of `x` at positions `is`. -/
inductive Sel : Input → List ℕ → Input → Prop
  | num {xs : List Pt} {is : List ℕ} (h : ∀ i ∈ is, i < xs.length) : Sel (.num xs) is (.num (entries [] xs is))
  | fdd {p : PId} {x x' : Input} {is : List ℕ} (h : Sel x is x') : Sel (.fdd p x) is (.fdd p x')
  | tup {xs xs' : List Input} {is : List ℕ} (h : SelL xs is xs') : Sel (.tup xs) is (.tup xs')
/-- The same for all inputs of a tuple. -/
inductive SelL : List Input → List ℕ → List Input → Prop
  | nil : SelL [] [] []
  | cons {x x' : Input} {xs xs' : List Input} {is js : List ℕ} (h : Sel x is x') (hs : SelL xs js xs') :
      SelL (x :: xs) (is ++ js.map (· + numElements x)) (x' :: xs')
end

mutual
theorem Sel.lt : ∀ {x : Input} {is : List ℕ} {x' : Input}, Sel x is x' → ∀ i ∈ is, i < numElements x
  | _, _, _, .num h => h
  | _, _, _, .fdd h => fun i hi => by have := h.lt i hi; exact this
  | _, _, _, .tup h => h.lt
theorem SelL.lt : ∀ {xs : List Input} {is : List ℕ} {xs' : List Input}, SelL xs is xs' → ∀ i ∈ is, i < numElementsL xs
  | _, _, _, .nil => fun _ h => by cases h
  | _, _, _, .cons (x := x) (js := js) h hs => fun i hi => by
    simp only [numElementsL]
    rcases List.mem_append.1 hi with hi | hi
    · have := h.lt i hi; omega
    · obtain ⟨j, hj, rfl⟩ := List.mem_map.1 hi
      have := hs.lt j hj; omega
end

mutual
theorem Sel.size : ∀ {x : Input} {is : List ℕ} {x' : Input}, Sel x is x' → numElements x' = is.length
  | _, _, _, .num h => by simp [numElements, entries]
  | _, _, _, .fdd h => by have := h.size; exact this
  | _, _, _, .tup h => by have := h.size; exact this
theorem SelL.size : ∀ {xs : List Input} {is : List ℕ} {xs' : List Input}, SelL xs is xs' → numElementsL xs' = is.length
  | _, _, _, .nil => rfl
  | _, _, _, .cons h hs => by
    have h1 := h.size
    have h2 := hs.size
    simp only [numElementsL, List.length_append, List.length_map]; omega
end

/-- `x'` has the elements of `x` at positions `is`, where there are `n` values and this is the number of elements; or nothing
is left out. -/
def SelF (x : Input) (n : ℕ) (is : List ℕ) (x' : Input) : Prop :=
  (x' = x ∧ is = List.range n) ∨ (n = numElements x ∧ Sel x is x')

theorem SelF.full (x : Input) (n : ℕ) : SelF x n (List.range n) x := .inl ⟨rfl, rfl⟩

theorem SelF.lt {x x' : Input} {n : ℕ} {is : List ℕ} (h : SelF x n is x') : ∀ i ∈ is, i < n := by
  rcases h with ⟨_, rfl⟩ | ⟨rfl, h⟩
  · simp
  · exact h.lt

inductive SelFL : List Input → List ℕ → List ℕ → List Input → Prop
  | nil : SelFL [] [] [] []
  | cons {x x' : Input} {xs xs' : List Input} {c : ℕ} {cs : List ℕ} {is js : List ℕ} (h : SelF x c is x')
      (hs : SelFL xs cs js xs') : SelFL (x :: xs) (c :: cs) (is ++ js.map (· + c)) (x' :: xs')

theorem SelFL.lt {xs xs' : List Input} {cs is : List ℕ} (h : SelFL xs cs is xs') : ∀ i ∈ is, i < cs.sum := by
  induction h with
  | nil => simp
  | cons h hs ih =>
    intro i hi
    rw [List.sum_cons]
    rcases List.mem_append.1 hi with hi | hi
    · have := h.lt i hi; omega
    · obtain ⟨j, hj, rfl⟩ := List.mem_map.1 hi
      have := ih j hj; omega

theorem SelFL.full : ∀ {xs : List Input} {cs : List ℕ}, xs.length = cs.length → SelFL xs cs (List.range cs.sum) xs
  | [], [], _ => .nil
  | x :: xs, c :: cs, h => by
    have := SelFL.cons (SelF.full x c) (SelFL.full (xs := xs) (cs := cs) (by simpa using h))
    rwa [show List.range c ++ (List.range cs.sum).map (· + c) = List.range (c :: cs).sum by
      rw [List.sum_cons, List.range_add]
      congr 1
      refine List.map_congr_left fun i _ => Nat.add_comm _ _] at this

theorem SelFL.of_tight {xs xs' : List Input} {is : List ℕ} : ∀ {cs : List ℕ}, SelL xs is xs' →
    List.Forall₂ (fun x c => numElements x ≤ c) xs cs → cs.sum = numElementsL xs → SelFL xs cs is xs' := by
  intro cs h
  induction xs generalizing xs' is cs with
  | nil =>
    intro h1 _
    cases h1
    cases h
    exact .nil
  | cons x xs ih =>
    intro h1 h2
    cases h1 with
    | @cons _ c _ cs hc hcs =>
    cases h with
    | cons hx hs =>
      have hle : numElementsL xs ≤ cs.sum := by
        clear ih hs h2
        induction hcs with
        | nil => simp [numElementsL]
        | cons h _ ih => simp only [numElementsL, List.sum_cons]; omega
      simp only [List.sum_cons, numElementsL] at h2
      have hce : c = numElements x := by omega
      rw [← hce]
      exact .cons (.inr ⟨hce, hx⟩) (ih hs hcs (by omega))

/-- Taking a tuple apart. -/
theorem SelF.split {x x' : Input} {is cs : List ℕ} (h : SelF x cs.sum is x')
    (hc : List.Forall₂ (fun x c => numElements x ≤ c) (asTup x) cs) :
    SelFL (asTup x) cs is (asTup x') ∧ (x'.IsAtom ↔ x.IsAtom) := by
  rcases h with ⟨rfl, rfl⟩ | ⟨hn, h⟩
  · exact ⟨.full hc.length_eq, Iff.rfl⟩
  · cases h with
    | num h =>
      cases hc with
      | cons hc h0 =>
      cases h0
      simp only [List.sum_cons, List.sum_nil, Nat.add_zero] at hn
      have := SelFL.cons (c := _) (.inr ⟨hn, Sel.num h⟩) .nil
      simp only [List.map_nil, List.append_nil] at this
      exact ⟨this, Iff.rfl⟩
    | fdd h =>
      cases hc with
      | cons hc h0 =>
      cases h0
      simp only [List.sum_cons, List.sum_nil, Nat.add_zero] at hn
      have := SelFL.cons (c := _) (.inr ⟨hn, Sel.fdd h⟩) .nil
      simp only [List.map_nil, List.append_nil] at this
      exact ⟨this, Iff.rfl⟩
    | tup h => exact ⟨.of_tight h hc hn, Iff.rfl⟩

theorem SelF.num {xs : List Pt} {is : List ℕ} {x' : Input} (h : SelF (.num xs) xs.length is x') :
    x' = .num (entries [] xs is) ∧ ∀ i ∈ is, i < xs.length := by
  rcases h with ⟨rfl, rfl⟩ | ⟨_, h⟩
  · refine ⟨?_, by simp⟩
    congr 1
    refine List.ext_getElem (by simp [entries]) fun i h1 h2 => ?_
    simp [entries, h1]
  · cases h with
    | num h => exact ⟨rfl, h⟩

theorem SelF.fdd {p : PId} {x x' : Input} {n : ℕ} {is : List ℕ} (h : SelF (.fdd p x) n is x') :
    ∃ x1, x' = .fdd p x1 ∧ SelF x n is x1 := by
  rcases h with ⟨rfl, rfl⟩ | ⟨hn, h⟩
  · exact ⟨x, rfl, .full _ _⟩
  · cases h with
    | fdd h => exact ⟨_, rfl, .inr ⟨hn, h⟩⟩

theorem entries_range (v : List ℝ) : entries 0 v (List.range v.length) = v := by
  refine List.ext_getElem (by simp [entries]) fun i h1 h2 => ?_
  simp [entries, h2]

theorem sub2_range (A : Mat) : A.Eqv (A.sub2 (List.range A.r) (List.range A.c)) := by
  refine ⟨by simp [Mat.sub2], by simp [Mat.sub2], fun i hi j hj => ?_⟩
  simp only [Mat.sub2, List.length_range] at hi hj
  simp [Mat.sub2, hi, hj]

theorem entries_zipWith {α β γ : Type} {d : α} {d' : β} {d'' : γ} {f : α → β → γ} {u : List α} {v : List β} {is : List ℕ}
    (hl : u.length = v.length) (h : ∀ i ∈ is, i < u.length) :
    entries d'' (List.zipWith f u v) is = List.zipWith f (entries d u is) (entries d' v is) := by
  refine List.ext_getElem (by simp [entries]) fun i h1 h2 => ?_
  have hi : i < is.length := by simpa [entries] using h1
  have := h is[i] (List.getElem_mem hi)
  have h' : is[i] < v.length := by omega
  simp [entries, this, h']

theorem entries_map {α β : Type} {d : α} {d' : β} {f : α → β} {u : List α} {is : List ℕ} (h : ∀ i ∈ is, i < u.length) :
    entries d' (u.map f) is = (entries d u is).map f := by
  refine List.ext_getElem (by simp [entries]) fun i h1 h2 => ?_
  have hi : i < is.length := by simpa [entries] using h1
  have := h is[i] (List.getElem_mem hi)
  simp [entries, this]

theorem entries_length {α : Type} {d : α} {u : List α} {is : List ℕ} : (entries d u is).length = is.length := by simp [entries]

theorem entries_mapM {α β : Type} {d : α} {d' : β} {f : α → Option β} {u : List α} {v : List β} (hf : u.mapM f = some v)
    {is : List ℕ} (h : ∀ i ∈ is, i < u.length) : (entries d u is).mapM f = some (entries d' v is) := by
  induction is with
  | nil => rfl
  | cons i is ih =>
    have hi := h i (by simp)
    obtain ⟨b, hb, e⟩ := mapM_get hf (List.getElem?_eq_getElem hi)
    show ((u.getD i d) :: entries d u is).mapM f = _
    rw [List.mapM_cons, ih fun i hi => h i (by simp [hi]), List.getD_eq_getElem?_getD, List.getElem?_eq_getElem hi]
    show (f u[i] >>= _) = _
    rw [e]
    show some (b :: entries d' v is) = some (v.getD i d' :: entries d' v is)
    rw [List.getD_eq_getElem?_getD, hb]; rfl

theorem entries_append {α : Type} {d : α} {u v : List α} {is js : List ℕ} (h : ∀ i ∈ is, i < u.length) :
    entries d (u ++ v) (is ++ js.map (· + u.length)) = entries d u is ++ entries d v js := by
  unfold entries
  rw [List.map_append, List.map_map]
  congr 1
  · refine List.map_congr_left fun i hi => ?_
    rw [List.getD_eq_getElem?_getD, List.getElem?_append_left (h i hi), List.getD_eq_getElem?_getD]
  · refine List.map_congr_left fun i hi => ?_
    simp [List.getElem?_append_right]

theorem entries_mem {α : Type} {d : α} {u : List α} {is : List ℕ} (h : ∀ i ∈ is, i < u.length) :
    ∀ a ∈ entries d u is, a ∈ u := by
  intro a ha
  obtain ⟨i, hi, rfl⟩ := List.mem_map.1 ha
  rw [List.getD_eq_getElem?_getD, List.getElem?_eq_getElem (h i hi)]
  exact List.getElem_mem _

/-- Input transformations act on each element. -/
theorem InTr.apply_sel {t : InTr} {x x1 x' : Input} {n : ℕ} {is : List ℕ} (h : t.apply x = some x1) (hs : SelF x n is x') :
    ∃ x1', t.apply x' = some x1' ∧ SelF x1 n is x1' := by
  have hn := InTr.apply_numElements h
  rcases hs with ⟨rfl, rfl⟩ | ⟨hn', hs⟩
  · exact ⟨x1, h, .full _ _⟩
  · rw [← hn] at hn'
    cases hs with
    | @num xs _ hi =>
      cases t with
      | none => cases h; exact ⟨_, rfl, .inr ⟨hn', .num hi⟩⟩
      | toFdd j => cases h; exact ⟨_, rfl, .inr ⟨hn', .fdd (.num hi)⟩⟩
      | map g =>
        cases h
        refine ⟨_, rfl, .inr ⟨hn', ?_⟩⟩
        rw [← entries_map (d' := []) hi]
        exact .num (by simpa using hi)
      | shift a =>
        obtain ⟨ys, hy, rfl⟩ := Option.map_eq_some_iff.1 h
        refine ⟨.num (entries [] ys is), ?_, .inr ⟨hn', .num (by rw [mapM_length hy]; exact hi)⟩⟩
        show Option.map _ _ = _
        rw [entries_mapM hy hi]; rfl
      | stretch a =>
        obtain ⟨ys, hy, rfl⟩ := Option.map_eq_some_iff.1 h
        refine ⟨.num (entries [] ys is), ?_, .inr ⟨hn', .num (by rw [mapM_length hy]; exact hi)⟩⟩
        show Option.map _ _ = _
        rw [entries_mapM hy hi]; rfl
      | select a =>
        obtain ⟨ys, hy, rfl⟩ := Option.map_eq_some_iff.1 h
        refine ⟨.num (entries [] ys is), ?_, .inr ⟨hn', .num (by rw [mapM_length hy]; exact hi)⟩⟩
        show Option.map _ _ = _
        rw [entries_mapM hy hi]; rfl
    | @fdd p y y' _ hs =>
      cases t <;> simp only [InTr.apply, reduceCtorEq, Option.some.injEq] at h
      · subst h; exact ⟨_, rfl, .inr ⟨hn', .fdd hs⟩⟩
      · subst h; exact ⟨_, rfl, .inr ⟨hn', .fdd (.fdd hs)⟩⟩
    | tup hs => cases t <;> simp [InTr.apply] at h

section
variable {lm : MId → PId → Option MExpr} {lk : MId → PId → PId → Option KExpr}

/-- Values at some of the elements are entries of the values. -/
structure Ev.Local (r : Ev) : Prop where
  M : ∀ a x v, r.M a x = some v → ∀ is x', SelF x v.length is x' → r.M a x' = some (entries 0 v is)
  K : ∀ k x y A, r.K k x y = some A → ∀ is x', SelF x A.r is x' → ∀ js y', SelF y A.c js y' →
    ∃ A', r.K k x' y' = some A' ∧ A'.Eqv (A.sub2 is js)

theorem stepFn_local {r : Ev} (hr : r.Local) {f : Fn} {x : Input} {v : List ℝ} (h : stepFn lm r f x = some v)
    {is : List ℕ} {x' : Input} (hs : SelF x v.length is x') : stepFn lm r f x' = some (entries 0 v is) := by
  cases f with
  | user f =>
    cases x <;> simp only [stepFn, reduceCtorEq, Option.some.injEq] at h
    subst h
    rw [List.length_map] at hs
    obtain ⟨rfl, hi⟩ := hs.num
    simp only [stepFn]
    rw [entries_map hi]
  | const c =>
    cases (show some _ = some v from h)
    show some _ = _
    congr 1
    have hlt := hs.lt
    rw [List.length_replicate] at hs hlt
    have hl : numElements x' = is.length := by
      rcases hs with ⟨rfl, rfl⟩ | ⟨_, hs⟩
      · simp
      · exact hs.size
    refine List.ext_getElem (by simp [entries, hl]) fun i h1 h2 => ?_
    have hi : i < is.length := by simpa [entries] using h2
    simp [entries, hlt is[i] (List.getElem_mem hi)]
  | meanOf m p =>
    obtain ⟨a, ha, h⟩ := bind_some h
    show (lm m p).bind _ = _
    rw [ha]
    exact hr.M a x v h is x' hs

theorem Mat.Eqv.add {A A' B B' S : Mat} (ha : A'.Eqv A) (hb : B'.Eqv B) (h : A.add B = some S) : ∃ S', A'.add B' = some S' ∧ S'.Eqv S := by
  obtain ⟨h1, h2, rfl⟩ := add_some h
  refine ⟨⟨A'.r, A'.c, fun i j => A'.e i j + B'.e i j⟩, if_pos ⟨by rw [ha.r, hb.r, h1], by rw [ha.c, hb.c, h2]⟩, ha.r, ha.c, fun i hi j hj => ?_⟩
  show A'.e i j + B'.e i j = A.e i j + B.e i j
  rw [ha.e i hi j hj, hb.e i (h1 ▸ hi) j (h2 ▸ hj)]

theorem Mat.Eqv.sub {A A' B B' S : Mat} (ha : A'.Eqv A) (hb : B'.Eqv B) (h : A.sub B = some S) : ∃ S', A'.sub B' = some S' ∧ S'.Eqv S := by
  obtain ⟨h1, h2, rfl⟩ := sub_some h
  refine ⟨⟨A'.r, A'.c, fun i j => A'.e i j - B'.e i j⟩, if_pos ⟨by rw [ha.r, hb.r, h1], by rw [ha.c, hb.c, h2]⟩, ha.r, ha.c, fun i hi j hj => ?_⟩
  show A'.e i j - B'.e i j = A.e i j - B.e i j
  rw [ha.e i hi j hj, hb.e i (h1 ▸ hi) j (h2 ▸ hj)]

theorem Mat.Eqv.mul {A A' B B' S : Mat} (ha : A'.Eqv A) (hb : B'.Eqv B) (h : A.mul B = some S) : ∃ S', A'.mul B' = some S' ∧ S'.Eqv S := by
  obtain ⟨h1, h2, rfl⟩ := mul_some h
  refine ⟨⟨A'.r, A'.c, fun i j => A'.e i j * B'.e i j⟩, if_pos ⟨by rw [ha.r, hb.r, h1], by rw [ha.c, hb.c, h2]⟩, ha.r, ha.c, fun i hi j hj => ?_⟩
  show A'.e i j * B'.e i j = A.e i j * B.e i j
  rw [ha.e i hi j hj, hb.e i (h1 ▸ hi) j (h2 ▸ hj)]

/-- Submatrices of sums. -/
theorem sub2_add {A B S : Mat} (h : A.add B = some S) (is js : List ℕ) : (A.sub2 is js).add (B.sub2 is js) = some (S.sub2 is js) := by
  obtain ⟨h1, h2, rfl⟩ := add_some h
  unfold Mat.add; exact if_pos ⟨rfl, rfl⟩

theorem sub2_sub {A B S : Mat} (h : A.sub B = some S) (is js : List ℕ) : (A.sub2 is js).sub (B.sub2 is js) = some (S.sub2 is js) := by
  obtain ⟨h1, h2, rfl⟩ := sub_some h
  unfold Mat.sub; exact if_pos ⟨rfl, rfl⟩

theorem sub2_mul {A B S : Mat} (h : A.mul B = some S) (is js : List ℕ) : (A.sub2 is js).mul (B.sub2 is js) = some (S.sub2 is js) := by
  obtain ⟨h1, h2, rfl⟩ := mul_some h
  unfold Mat.mul; exact if_pos ⟨rfl, rfl⟩

theorem quad_local {n : ℕ} {W : Matrix (Fin n) (Fin n) ℝ} {B B' C C' Q : Mat} {is js : List ℕ}
    (h : Mat.quad W B C = some Q) (hb : B'.Eqv (B.sub2 (List.range B.r) is)) (hc : C'.Eqv (C.sub2 (List.range C.r) js)) :
    ∃ Q', Mat.quad W B' C' = some Q' ∧ Q'.Eqv (Q.sub2 is js) := by
  unfold Mat.quad at h
  split at h
  · next hr =>
    cases h
    have r1 : B'.r = n := by rw [hb.r]; simp [Mat.sub2, hr.1]
    have r2 : C'.r = n := by rw [hc.r]; simp [Mat.sub2, hr.2]
    refine ⟨⟨B'.c, C'.c, fun i j => ∑ a : Fin n, ∑ b : Fin n, B'.e a i * W a b * C'.e b j⟩, if_pos ⟨r1, r2⟩, hb.c, hc.c, fun i hi j hj => ?_⟩
    simp only [Mat.sub2] at hi hj ⊢
    refine Finset.sum_congr rfl fun a _ => Finset.sum_congr rfl fun b _ => ?_
    have e1 := hb.e a (by simp [Mat.sub2, hr.1]) i hi
    have e2 := hc.e b (by simp [Mat.sub2, hr.2]) j hj
    simp only [Mat.sub2] at e1 e2
    rw [e1, e2]
    simp [hr.1, hr.2]
  · cases h

theorem tmulVec_local {n : ℕ} {w : Fin n → ℝ} {B B' : Mat} {t : List ℝ} {is : List ℕ} (h : Mat.tmulVec B w = some t)
    (hb : B'.Eqv (B.sub2 (List.range B.r) is)) (hi : ∀ i ∈ is, i < B.c) :
    t.length = B.c ∧ Mat.tmulVec B' w = some (entries 0 t is) := by
  unfold Mat.tmulVec at h
  split at h
  · next hr =>
    cases h
    refine ⟨by simp, ?_⟩
    have r1 : B'.r = n := by rw [hb.r]; simp [Mat.sub2, hr]
    have c1 : B'.c = is.length := hb.c
    unfold Mat.tmulVec
    rw [if_pos r1]
    congr 1
    refine List.ext_getElem (by simp [entries, c1]) fun i h1 h2 => ?_
    have hi' : i < is.length := by simpa [entries] using h2
    simp only [entries, List.getElem_map, List.getElem_range, List.getD_eq_getElem?_getD]
    rw [List.getElem?_map, List.getElem?_range (hi _ (List.getElem_mem hi'))]
    simp only [Option.map_some, Option.getD_some]
    refine Finset.sum_congr rfl fun a _ => ?_
    have e1 := hb.e a (by simp [Mat.sub2, hr]) i hi'
    simp only [Mat.sub2] at e1
    rw [e1]
    simp [hr, hi']
  · cases h

/-- Rows of blocks. -/
theorem hcatL_local {r : Ev} (hr : r.Local) {k : KExpr} {x x' : Input} {is : List ℕ} :
    ∀ {ys ys' : List Input} {cs js : List ℕ} {As : List Mat} {R : Mat}, SelFL ys cs js ys' →
      ys.mapM (fun y => r.K k x y) = some As → As.map (·.c) = cs → hcatL As = some R → SelF x R.r is x' →
      ∃ As', ys'.mapM (fun y => r.K k x' y) = some As' ∧ ∃ R', hcatL As' = some R' ∧ R'.Eqv (R.sub2 is js) := by
  intro ys ys' cs js As R hs
  induction hs generalizing As R with
  | nil =>
    intro h _ h2
    cases h
    cases h2
  | @cons y y' ys ys' c cs is1 js h hs ih =>
    intro h1 h2 h3 h4
    obtain ⟨A, As, hA, hAs, rfl⟩ := mapM_cons_some h1
    rw [List.map_cons, List.cons.injEq] at h2
    obtain ⟨rfl, h2⟩ := h2
    cases As with
    | nil =>
      cases h3
      cases hs with
      | nil =>
        obtain ⟨A', hA', hE⟩ := hr.K _ _ _ _ hA _ _ h4 _ _ h
        refine ⟨[A'], by rw [List.mapM_cons, hA']; rfl, A', rfl, ?_⟩
        simpa using hE
      | cons =>
        obtain ⟨_, _, _, _, hc⟩ := mapM_cons_some hAs
        cases hc
    | cons B As =>
      change (hcatL (B :: As) >>= fun N => hcat A N) = some R at h3
      obtain ⟨N, hN, h3⟩ := bind_some h3
      obtain ⟨hrN, rfl⟩ := hcat_some h3
      obtain ⟨A', hA', hE⟩ := hr.K _ _ _ _ hA _ _ h4 _ _ h
      obtain ⟨As', hAs', R', hR', hE'⟩ := ih hAs h2 hN (by rw [← hrN]; exact h4)
      refine ⟨A' :: As', by rw [List.mapM_cons, hA', hAs']; rfl, ?_⟩
      cases As' with
      | nil => cases hR'
      | cons B' As' =>
        refine ⟨⟨A'.r, A'.c + R'.c, fun i j => if j < A'.c then A'.e i j else R'.e i (j - A'.c)⟩, ?_, ?_, ?_, ?_⟩
        · show (hcatL (B' :: As') >>= fun N => hcat A' N) = _
          rw [hR']
          show hcat A' R' = _
          unfold hcat
          exact if_pos (by rw [hE.r, hE'.r]; rfl)
        · exact hE.r
        · show A'.c + R'.c = (is1 ++ js.map _).length
          rw [hE.c, hE'.c]; simp [Mat.sub2]
        · intro i hi j hj
          simp only [Mat.sub2, List.length_append, List.length_map] at hi hj ⊢
          have hc' : A'.c = is1.length := hE.c
          rw [hc']
          by_cases hj1 : j < is1.length
          · rw [if_pos hj1, hE.e i hi j hj1]
            have : (is1 ++ js.map (· + A.c)).getD j 0 = is1.getD j 0 := by
              rw [List.getD_eq_getElem?_getD, List.getElem?_append_left hj1, List.getD_eq_getElem?_getD]
            rw [this, if_pos]
            · rfl
            · rw [List.getD_eq_getElem?_getD, List.getElem?_eq_getElem hj1]
              exact h.lt _ (List.getElem_mem _)
          · rw [if_neg hj1, hE'.e i hi _ (by show _ < js.length; omega)]
            have : (is1 ++ js.map (· + A.c)).getD j 0 = js.getD (j - is1.length) 0 + A.c := by
              rw [List.getD_eq_getElem?_getD, List.getElem?_append_right (by omega), List.getElem?_map,
                List.getD_eq_getElem?_getD, List.getElem?_eq_getElem (by omega)]
              rfl
            rw [this, if_neg (by omega), Nat.add_sub_cancel]
            rfl

/-- Blocks of rows. -/
theorem vcatL_local {f f' : Input → Option Mat} {js : List ℕ} {c : ℕ}
    (hf : ∀ x R, f x = some R → R.c = c → ∀ is x', SelF x R.r is x' → ∃ R', f' x' = some R' ∧ R'.Eqv (R.sub2 is js)) :
    ∀ {xs xs' : List Input} {cs is : List ℕ} {As : List Mat} {R : Mat}, SelFL xs cs is xs' →
      xs.mapM f = some As → As.map (·.r) = cs → vcatL As = some R → R.c = c →
      ∃ As', xs'.mapM f' = some As' ∧ ∃ R', vcatL As' = some R' ∧ R'.Eqv (R.sub2 is js) := by
  intro xs xs' cs is As R hs
  induction hs generalizing As R with
  | nil =>
    intro h _ h2 _
    cases h
    cases h2
  | @cons x x' xs xs' d cs is1 is h hs ih =>
    intro h1 h2 h3 h5
    obtain ⟨A, As, hA, hAs, rfl⟩ := mapM_cons_some h1
    rw [List.map_cons, List.cons.injEq] at h2
    obtain ⟨rfl, h2⟩ := h2
    cases As with
    | nil =>
      cases h3
      cases hs with
      | nil =>
        obtain ⟨A', hA', hE⟩ := hf _ _ hA h5 _ _ h
        refine ⟨[A'], by rw [List.mapM_cons, hA']; rfl, A', rfl, ?_⟩
        simpa using hE
      | cons =>
        obtain ⟨_, _, _, _, hc⟩ := mapM_cons_some hAs
        cases hc
    | cons B As =>
      change (vcatL (B :: As) >>= fun N => vcat A N) = some R at h3
      obtain ⟨N, hN, h3⟩ := bind_some h3
      obtain ⟨hrN, rfl⟩ := vcat_some h3
      obtain ⟨A', hA', hE⟩ := hf _ _ hA h5 _ _ h
      obtain ⟨As', hAs', R', hR', hE'⟩ := ih hAs h2 hN (hrN.symm.trans h5)
      refine ⟨A' :: As', by rw [List.mapM_cons, hA', hAs']; rfl, ?_⟩
      cases As' with
      | nil => cases hR'
      | cons B' As' =>
        refine ⟨⟨A'.r + R'.r, A'.c, fun i j => if i < A'.r then A'.e i j else R'.e (i - A'.r) j⟩, ?_, ?_, ?_, ?_⟩
        · show (vcatL (B' :: As') >>= fun N => vcat A' N) = _
          rw [hR']
          show vcat A' R' = _
          unfold vcat
          exact if_pos (by rw [hE.c, hE'.c]; rfl)
        · show A'.r + R'.r = (is1 ++ is.map _).length
          rw [hE.r, hE'.r]; simp [Mat.sub2]
        · exact hE.c
        · intro i hi j hj
          simp only [Mat.sub2, List.length_append, List.length_map] at hi hj ⊢
          have hc' : A'.r = is1.length := hE.r
          rw [hc']
          by_cases hj1 : i < is1.length
          · rw [if_pos hj1, hE.e i hj1 j hj]
            have : (is1 ++ is.map (· + A.r)).getD i 0 = is1.getD i 0 := by
              rw [List.getD_eq_getElem?_getD, List.getElem?_append_left hj1, List.getD_eq_getElem?_getD]
            rw [this, if_pos]
            · rfl
            · rw [List.getD_eq_getElem?_getD, List.getElem?_eq_getElem hj1]
              exact h.lt _ (List.getElem_mem _)
          · rw [if_neg hj1, hE'.e _ (by show _ < is.length; omega) j hj]
            have : (is1 ++ is.map (· + A.r)).getD i 0 = is.getD (i - is1.length) 0 + A.r := by
              rw [List.getD_eq_getElem?_getD, List.getElem?_append_right (by omega), List.getElem?_map,
                List.getD_eq_getElem?_getD, List.getElem?_eq_getElem (by omega)]
              rfl
            rw [this, if_neg (by omega), Nat.add_sub_cancel]
            rfl

theorem mapM_forall₂ {α β : Type} {f : α → Option β} {P : α → β → Prop} : ∀ {l : List α} {l' : List β}, l.mapM f = some l' →
    (∀ a b, f a = some b → b ∈ l' → P a b) → List.Forall₂ P l l'
  | [], _, h, _ => by cases h; exact .nil
  | a :: l, _, h, hp => by
    obtain ⟨b, bs, h1, h2, rfl⟩ := mapM_cons_some h
    exact .cons (hp a b h1 (by simp)) (mapM_forall₂ h2 fun a b h hb => hp a b h (by simp [hb]))

theorem tupK_local {r : Ev} (hr : r.Local) (hb : r.Big) {k : KExpr} {x y x' y' : Input} {A : Mat}
    (h : tupK r k (asTup x) (asTup y) = some A) {is js : List ℕ} (hx : SelF x A.r is x') (hy : SelF y A.c js y') :
    ∃ A', tupK r k (asTup x') (asTup y') = some A' ∧ A'.Eqv (A.sub2 is js) := by
  obtain ⟨rows, h1, h2⟩ := bind_some h
  obtain ⟨e1, e2⟩ := vcatL_big h2
  have row : ∀ x R, (do let row ← (asTup y).mapM fun y => r.K k x y; Mat.hcatL row) = some R → R.c = A.c → ∀ is x', SelF x R.r is x' →
      numElements x ≤ R.r ∧
      ∃ R', (do let row ← (asTup y').mapM fun y => r.K k x' y; Mat.hcatL row) = some R' ∧ R'.Eqv (R.sub2 is js) := by
    intro x R hR hc is x' hs
    obtain ⟨row, h3, h4⟩ := bind_some hR
    obtain ⟨e3, e4⟩ := hcatL_big h4
    have hf : List.Forall₂ (fun y c => numElements y ≤ c) (asTup y) (row.map (·.c)) := by
      rw [List.forall₂_map_right_iff]
      exact mapM_forall₂ h3 fun y B hB _ => (hb.K _ _ _ _ hB).2
    rw [← hc, e3] at hy
    obtain ⟨hL, _⟩ := hy.split hf
    obtain ⟨As', hAs, R', hR', hE⟩ := hcatL_local hr hL h3 rfl h4 hs
    refine ⟨?_, R', by rw [hAs]; exact hR', hE⟩
    cases row with
    | nil => cases h4
    | cons B row =>
      rw [← e4 B (List.mem_cons_self ..)]
      obtain ⟨y, _, hB⟩ := mem_mapM h3 B (List.mem_cons_self ..)
      exact (hb.K _ _ _ _ hB).1
  have hf : List.Forall₂ (fun x c => numElements x ≤ c) (asTup x) (rows.map (·.r)) := by
    rw [List.forall₂_map_right_iff]
    exact mapM_forall₂ h1 fun x R hR hm => (row x R hR (e2 R hm) _ _ (.full _ _)).1
  rw [e1] at hx
  obtain ⟨hL, _⟩ := hx.split hf
  obtain ⟨As', hAs, R', hR', hE⟩ := vcatL_local (js := js) (fun x R hR hc is x' hs => (row x R hR hc is x' hs).2) hL h1 rfl h2 rfl
  exact ⟨R', by unfold tupK; rw [hAs]; exact hR', hE⟩

theorem stepKAtom_local {r : Ev} (hr : r.Local) (hb : r.Big) {k : KExpr} {x y x' y' : Input} {A : Mat}
    (h : stepKAtom lm lk r k x y = some A) {is js : List ℕ} (hx : SelF x A.r is x') (hy : SelF y A.c js y') :
    ∃ A', stepKAtom lm lk r k x' y' = some A' ∧ A'.Eqv (A.sub2 is js) := by
  cases k with
  | prim k =>
    cases x <;> cases y <;> simp only [stepKAtom, Option.some.injEq, reduceCtorEq] at h
    subst h
    obtain ⟨rfl, h1⟩ := hx.num
    obtain ⟨rfl, h2⟩ := hy.num
    refine ⟨_, rfl, entries_length, entries_length, fun i hi j hj => ?_⟩
    simp only [Mat.sub2] at hi hj ⊢
    congr 1
    · simp [entries, hi]
    · simp [entries, hj]
  | zero =>
    cases (show some _ = some A from h)
    have size : ∀ {x x' : Input} {is : List ℕ}, SelF x (numElements x) is x' → numElements x' = is.length := by
      intro x x' is hs
      rcases hs with ⟨rfl, rfl⟩ | ⟨_, hs⟩
      · simp
      · exact hs.size
    exact ⟨_, rfl, size hx, size hy, fun _ _ _ _ => rfl⟩
  | mok m ps =>
    -- the tuple that a numeric input stands for
    have expand : ∀ {xs : List Pt} {n : ℕ} {is : List ℕ} {x' : Input}, SelF (.num xs) n is x' →
        numElementsL (ps.map (.fdd · (.num xs))) ≤ n → ps ≠ [] →
        ∃ xs', x' = .num xs' ∧ SelF (.tup (ps.map (.fdd · (.num xs)))) n is (.tup (ps.map (.fdd · (.num xs')))) := by
      intro xs n is x' hs hn hp
      rcases hs with ⟨rfl, rfl⟩ | ⟨rfl, hs⟩
      · exact ⟨xs, rfl, .full _ _⟩
      · cases hs with
        | num hi =>
          match ps, hp with
          | [p], _ =>
            refine ⟨_, rfl, .inr ⟨rfl, .tup ?_⟩⟩
            have := SelL.cons (.fdd (p := p) (.num hi)) .nil
            simpa using this
          | p :: q :: ps, _ =>
            have : xs.length = 0 := by
              simp only [List.map_cons, numElementsL, numElements] at hn
              omega
            have := List.eq_nil_of_length_eq_zero this
            subst this
            have : is = [] := by
              cases is with
              | nil => rfl
              | cons i is => exact absurd (hi i (by simp)) (by simp)
            subst this
            exact ⟨[], rfl, .full _ _⟩
    have hp : (∃ xs, x = .num xs) ∨ (∃ ys, y = .num ys) → ps ≠ [] := by
      rintro (⟨xs, rfl⟩ | ⟨ys, rfl⟩) rfl
      · cases y <;> simp [stepKAtom, hb.emptyL] at h
      · cases x <;> simp [stepKAtom, hb.emptyR] at h
    cases x with
    | num xs =>
      replace hp := hp (.inl ⟨xs, rfl⟩)
      cases y with
      | num ys =>
        have hB := hb.K _ _ _ _ h
        obtain ⟨xs', rfl, hx'⟩ := expand hx hB.1 hp
        obtain ⟨ys', rfl, hy'⟩ := expand hy hB.2 hp
        exact hr.K _ _ _ _ h _ _ hx' _ _ hy'
      | fdd q y =>
        have hB := hb.K _ _ _ _ h
        obtain ⟨xs', rfl, hx'⟩ := expand hx hB.1 hp
        obtain ⟨y1, rfl, hy'⟩ := hy.fdd
        refine hr.K _ _ _ _ h _ _ hx' _ _ ?_
        rcases hy' with ⟨rfl, rfl⟩ | ⟨hn, hy'⟩
        · exact .full _ _
        · refine .inr ⟨by simpa [numElements, numElementsL] using hn, .tup ?_⟩
          have := SelL.cons (.fdd (p := q) hy') .nil
          simpa using this
      | tup ys => cases h
    | fdd p x =>
      cases y with
      | num ys =>
        replace hp := hp (.inr ⟨ys, rfl⟩)
        have hB := hb.K _ _ _ _ h
        obtain ⟨ys', rfl, hy'⟩ := expand hy hB.2 hp
        obtain ⟨x1, rfl, hx'⟩ := hx.fdd
        refine hr.K _ _ _ _ h _ _ ?_ _ _ hy'
        rcases hx' with ⟨rfl, rfl⟩ | ⟨hn, hx'⟩
        · exact .full _ _
        · refine .inr ⟨by simpa [numElements, numElementsL] using hn, .tup ?_⟩
          have := SelL.cons (.fdd (p := p) hx') .nil
          simpa using this
      | fdd q y =>
        obtain ⟨k, hk, h⟩ := bind_some h
        obtain ⟨x1, rfl, hx'⟩ := hx.fdd
        obtain ⟨y1, rfl, hy'⟩ := hy.fdd
        show ∃ A', (lk m p q).bind _ = some A' ∧ _
        rw [hk]
        exact hr.K _ _ _ _ h _ _ hx' _ _ hy'
      | tup ys => cases h
    | tup xs => cases y <;> cases h
  | adk k => exact hr.K _ _ _ _ h _ _ hx _ _ hy
  | add a b =>
    obtain ⟨A1, h1, h⟩ := bind_some h
    obtain ⟨B1, h2, h⟩ := bind_some h
    obtain ⟨e1, e2, e3⟩ := add_some h
    rw [e3] at hx hy
    obtain ⟨A1', g1, k1⟩ := hr.K _ _ _ _ h1 _ _ hx _ _ hy
    obtain ⟨B1', g2, k2⟩ := hr.K _ _ _ _ h2 _ _ (e1 ▸ hx) _ _ (e2 ▸ hy)
    show ∃ A', (r.K a x' y').bind _ = some A' ∧ _
    rw [g1]
    show ∃ A', (r.K b x' y').bind _ = some A' ∧ _
    rw [g2]
    exact k1.add k2 (sub2_add h is js)
  | mul a b =>
    obtain ⟨A1, h1, h⟩ := bind_some h
    obtain ⟨B1, h2, h⟩ := bind_some h
    obtain ⟨e1, e2, e3⟩ := mul_some h
    rw [e3] at hx hy
    obtain ⟨A1', g1, k1⟩ := hr.K _ _ _ _ h1 _ _ hx _ _ hy
    obtain ⟨B1', g2, k2⟩ := hr.K _ _ _ _ h2 _ _ (e1 ▸ hx) _ _ (e2 ▸ hy)
    show ∃ A', (r.K a x' y').bind _ = some A' ∧ _
    rw [g1]
    show ∃ A', (r.K b x' y').bind _ = some A' ∧ _
    rw [g2]
    exact k1.mul k2 (sub2_mul h is js)
  | scale c k =>
    obtain ⟨B, hB, rfl⟩ := Option.map_eq_some_iff.1 (show (r.K k x y).map _ = some A from h)
    obtain ⟨B', g, e⟩ := hr.K _ _ _ _ hB _ _ hx _ _ hy
    refine ⟨B'.smul c, by show (r.K k x' y').map _ = _; rw [g]; rfl, e.r, e.c, fun i hi j hj => ?_⟩
    show c * B'.e i j = c * _
    rw [e.e i hi j hj]; rfl
  | tprod f g =>
    obtain ⟨u, h1, h⟩ := bind_some h
    obtain ⟨v, h2, h⟩ := bind_some h
    cases h
    refine ⟨⟨(entries 0 u is).length, (entries 0 v js).length, fun i j => (entries 0 u is).getD i 0 * (entries 0 v js).getD j 0⟩,
      ?_, entries_length, entries_length, fun i hi j hj => ?_⟩
    · show (stepFn lm r f x').bind _ = _
      rw [stepFn_local hr h1 hx]
      show (stepFn lm r g y').bind _ = _
      rw [stepFn_local hr h2 hy]; rfl
    · simp only [Mat.sub2] at hi hj ⊢
      congr 1
      · simp [entries, hi]
      · simp [entries, hj]
  | rev k =>
    obtain ⟨B, hB, rfl⟩ := Option.map_eq_some_iff.1 (show (r.K k y x).map _ = some A from h)
    obtain ⟨B', g, e⟩ := hr.K _ _ _ _ hB _ _ hy _ _ hx
    exact ⟨B'.tr, by show (r.K k y' x').map _ = _; rw [g]; rfl, e.c, e.r, fun i hi j hj => e.e j hj i hi⟩
  | pre t u k =>
    obtain ⟨x1, h1, h⟩ := bind_some h
    obtain ⟨y1, h2, h⟩ := bind_some h
    obtain ⟨x1', g1, hx'⟩ := InTr.apply_sel h1 hx
    obtain ⟨y1', g2, hy'⟩ := InTr.apply_sel h2 hy
    show ∃ A', (t.apply x').bind _ = some A' ∧ _
    rw [g1]
    show ∃ A', (u.apply y').bind _ = some A' ∧ _
    rw [g2]
    exact hr.K _ _ _ _ h _ _ hx' _ _ hy'
  | diff d e k =>
    cases x <;> cases y <;> simp only [stepKAtom, reduceCtorEq] at h
    next xs ys =>
    unfold diffMat at h
    split at h
    · next hall =>
      cases h
      obtain ⟨rfl, h1⟩ := hx.num
      obtain ⟨rfl, h2⟩ := hy.num
      refine ⟨_, by
        show diffMat r k d e (entries [] xs is) (entries [] ys js) = _
        unfold diffMat
        exact if_pos fun x hx y hy => hall x (entries_mem h1 x hx) y (entries_mem h2 y hy), entries_length, entries_length,
        fun i hi j hj => ?_⟩
      simp only [Mat.sub2] at hi hj ⊢
      have hi' : is.getD i 0 < xs.length := by
        rw [List.getD_eq_getElem?_getD, List.getElem?_eq_getElem hi]; exact h1 _ (List.getElem_mem _)
      have hj' : js.getD j 0 < ys.length := by
        rw [List.getD_eq_getElem?_getD, List.getElem?_eq_getElem hj]; exact h2 _ (List.getElem_mem _)
      rw [if_pos ⟨by rw [entries_length]; exact hi, by rw [entries_length]; exact hj⟩, if_pos ⟨hi', hj'⟩]
      congr 2
      · simp [entries, hi]
      · simp [entries, hj]
    · cases h
  | post kij kzi kzj z kzz noise =>
    obtain ⟨A1, h1, h⟩ := bind_some h
    obtain ⟨K1, h2, h⟩ := bind_some h
    obtain ⟨B1, h3, h⟩ := bind_some h
    obtain ⟨C1, h4, h⟩ := bind_some h
    obtain ⟨Q1, h5, h⟩ := bind_some h
    obtain ⟨e1, e2, e3⟩ := sub_some h
    obtain ⟨q1, q2⟩ := quad_some h5
    rw [e3] at hx hy
    obtain ⟨A1', g1, k1⟩ := hr.K _ _ _ _ h1 _ _ hx _ _ hy
    obtain ⟨B1', g3, k3⟩ := hr.K _ _ _ _ h3 _ _ (.full _ _) _ _ (q1 ▸ e1 ▸ hx)
    obtain ⟨C1', g4, k4⟩ := hr.K _ _ _ _ h4 _ _ (.full _ _) _ _ (q2 ▸ e2 ▸ hy)
    obtain ⟨Q1', g5, k5⟩ := quad_local h5 k3 k4
    show ∃ A', (r.K kij x' y').bind _ = some A' ∧ _
    rw [g1]
    show ∃ A', (stepKz r kzz z noise).bind _ = some A' ∧ _
    rw [h2]
    show ∃ A', (r.K kzi z x').bind _ = some A' ∧ _
    rw [g3]
    show ∃ A', (r.K kzj z y').bind _ = some A' ∧ _
    rw [g4]
    show ∃ A', (Mat.quad (K1.sq K1.r)⁻¹ B1' C1').bind _ = some A' ∧ _
    rw [g5]
    exact k1.sub k5 (sub2_sub h is js)
  | pseudo kij kzi kzj kzz kzx kxx o =>
    obtain ⟨A1, h1, h⟩ := bind_some h
    obtain ⟨K1, h2, h⟩ := bind_some h
    obtain ⟨B1, h3, h⟩ := bind_some h
    obtain ⟨C1, h4, h⟩ := bind_some h
    obtain ⟨Q1, h5, h⟩ := bind_some h
    obtain ⟨P1, h6, h⟩ := bind_some h
    obtain ⟨R1, h7, h⟩ := bind_some h
    obtain ⟨f1, f2, f3⟩ := add_some h
    obtain ⟨e1, e2, e3⟩ := sub_some h6
    obtain ⟨q1, q2⟩ := quad_some h5
    rw [f3] at hx hy
    rw [e3] at hx hy
    obtain ⟨A1', g1, k1⟩ := hr.K _ _ _ _ h1 _ _ hx _ _ hy
    obtain ⟨B1', g3, k3⟩ := hr.K _ _ _ _ h3 _ _ (.full _ _) _ _ (q1 ▸ e1 ▸ hx)
    obtain ⟨C1', g4, k4⟩ := hr.K _ _ _ _ h4 _ _ (.full _ _) _ _ (q2 ▸ e2 ▸ hy)
    obtain ⟨Q1', g5, k5⟩ := quad_local h5 k3 k4
    obtain ⟨R1', g7, k7⟩ := quad_local h7 k3 k4
    obtain ⟨P1', g6, k6⟩ := k1.sub k5 (sub2_sub h6 is js)
    show ∃ A', (r.K kij x' y').bind _ = some A' ∧ _
    rw [g1]
    show ∃ A', (stepIngredients r kzz kzx kxx o).bind _ = some A' ∧ _
    rw [h2]
    show ∃ A', (r.K kzi o.z x').bind _ = some A' ∧ _
    rw [g3]
    show ∃ A', (r.K kzj o.z y').bind _ = some A' ∧ _
    rw [g4]
    show ∃ A', (Mat.quad K1.Kz⁻¹ B1' C1').bind _ = some A' ∧ _
    rw [g5]
    show ∃ A', (A1'.sub Q1').bind _ = some A' ∧ _
    rw [g6]
    show ∃ A', (Mat.quad (K1.A o)⁻¹ B1' C1').bind _ = some A' ∧ _
    rw [g7]
    exact k6.add k7 (sub2_add h is js)

theorem zipCol_local {f : ℝ → ℝ → ℝ} {u v w : List ℝ} (h : zipCol f u v = some w) {is : List ℕ} (hi : ∀ i ∈ is, i < w.length) :
    u.length = w.length ∧ v.length = w.length ∧ zipCol f (entries 0 u is) (entries 0 v is) = some (entries 0 w is) := by
  obtain ⟨hl, rfl⟩ := zipCol_some h
  have hu : u.length = (List.zipWith f u v).length := by simp [hl]
  refine ⟨hu, hl ▸ hu, ?_⟩
  unfold zipCol
  rw [if_pos (by rw [entries_length, entries_length]), entries_zipWith hl (by rw [hu]; exact hi)]

theorem stepM_local {r : Ev} (hr : r.Local) (hb : r.Big) {a : MExpr} {x x' : Input} {v : List ℝ}
    (h : stepM lm r a x = some v) {is : List ℕ} (hx : SelF x v.length is x') : stepM lm r a x' = some (entries 0 v is) := by
  have hlt := hx.lt
  cases a with
  | zero =>
    have : stepFn lm r (.const 0) x = some v := h
    exact stepFn_local hr this hx
  | fn f => exact stepFn_local hr h hx
  | mom m ps =>
    cases x with
    | num xs =>
      have hp : ps ≠ [] := by
        rintro rfl
        simp [stepM, hb.emptyM] at h
      have hB := hb.M _ _ _ h
      rcases hx with ⟨rfl, rfl⟩ | ⟨hn, hs⟩
      · rw [h, entries_range]
      · cases hs with
        | num hi =>
          match ps, hp with
          | [p], _ =>
            refine hr.M _ _ _ h is _ (.inr ⟨hn, .tup ?_⟩)
            have := SelL.cons (.fdd (p := p) (.num hi)) .nil
            simpa using this
          | p :: q :: ps, _ =>
            have : xs.length = 0 := by
              simp only [List.map_cons, numElementsL, numElements] at hB hn
              omega
            have := List.eq_nil_of_length_eq_zero this
            subst this
            have : is = [] := by
              cases is with
              | nil => rfl
              | cons i is => exact absurd (hi i (by simp)) (by simp)
            subst this
            have : v = [] := List.eq_nil_of_length_eq_zero hn
            subst this
            exact h
    | fdd p x =>
      obtain ⟨b, hlm, h⟩ := bind_some h
      obtain ⟨x1, rfl, hx'⟩ := hx.fdd
      show (lm m p).bind _ = _
      rw [hlm]
      exact hr.M _ _ _ h _ _ hx'
    | tup xs =>
      simp only [stepM] at h
      split at h
      · cases h
      · next hne =>
        obtain ⟨ls, hl, rfl⟩ := Option.map_eq_some_iff.1 h
        have hf : List.Forall₂ (fun x c => numElements x ≤ c) xs (ls.map (·.length)) := by
          rw [List.forall₂_map_right_iff]
          exact mapM_forall₂ hl fun x l hx _ => hb.M _ _ _ hx
        have hs : ∃ xs', x' = .tup xs' ∧ SelFL xs (ls.map (·.length)) is xs' := by
          have hsp := SelF.split (x := .tup xs) (x' := x') (is := is) (cs := ls.map fun l : List ℝ => l.length) (by rwa [← List.length_flatten]) hf
          rcases hx with ⟨rfl, _⟩ | ⟨_, hs⟩
          · exact ⟨xs, rfl, hsp.1⟩
          · cases hs; exact ⟨_, rfl, hsp.1⟩
        obtain ⟨xs', rfl, hs⟩ := hs
        have hne' : xs' ≠ [] := by
          rintro rfl
          generalize ls.map (·.length) = cs at hs
          cases hs; exact hne rfl
        simp only [stepM]
        rw [if_neg hne']
        have main : ∀ (xs : List Input) (xs' : List Input) (ls : List (List ℝ)) (is : List ℕ), SelFL xs (ls.map (·.length)) is xs' →
            xs.mapM (r.M (.mom m ps)) = some ls → (xs'.mapM (r.M (.mom m ps))).map List.flatten = some (entries 0 ls.flatten is) := by
          intro xs xs' ls is hs
          generalize hcs : ls.map (·.length) = cs at hs
          induction hs generalizing ls with
          | nil =>
            intro h
            cases h
            rfl
          | @cons x x' xs xs' c cs is js h hs ih =>
            intro hm
            obtain ⟨l, ls, h1, h2, rfl⟩ := mapM_cons_some hm
            rw [List.map_cons, List.cons.injEq] at hcs
            obtain ⟨rfl, hcs⟩ := hcs
            obtain ⟨ls', h3, h4⟩ := Option.map_eq_some_iff.1 (ih ls hcs h2)
            rw [List.mapM_cons, hr.M _ _ _ h1 _ _ h, h3, List.flatten_cons, entries_append h.lt, ← h4]
            rfl
        exact main xs xs' ls is hs hl
  | add a b =>
    obtain ⟨u1, h1, h⟩ := bind_some h
    obtain ⟨v1, h2, h⟩ := bind_some h
    obtain ⟨l1, l2, hz⟩ := zipCol_local h hlt
    show (r.M a x').bind _ = _
    rw [hr.M _ _ _ h1 _ _ (l1 ▸ hx)]
    show (r.M b x').bind _ = _
    rw [hr.M _ _ _ h2 _ _ (l2 ▸ hx)]
    exact hz
  | mul a b =>
    obtain ⟨u1, h1, h⟩ := bind_some h
    obtain ⟨v1, h2, h⟩ := bind_some h
    obtain ⟨l1, l2, hz⟩ := zipCol_local h hlt
    show (r.M a x').bind _ = _
    rw [hr.M _ _ _ h1 _ _ (l1 ▸ hx)]
    show (r.M b x').bind _ = _
    rw [hr.M _ _ _ h2 _ _ (l2 ▸ hx)]
    exact hz
  | scale c a =>
    obtain ⟨B, hB, rfl⟩ := Option.map_eq_some_iff.1 (show (r.M a x).map _ = some v from h)
    rw [List.length_map] at hx hlt
    show (r.M a x').map _ = _
    rw [hr.M _ _ _ hB _ _ hx, entries_map hlt]; rfl
  | pre t a =>
    obtain ⟨x1, h1, h⟩ := bind_some h
    obtain ⟨x1', g1, hx'⟩ := InTr.apply_sel h1 hx
    show (t.apply x').bind _ = _
    rw [g1]
    exact hr.M _ _ _ h _ _ hx'
  | diff d a =>
    cases x <;> simp only [stepM, reduceCtorEq] at h
    rw [mapM_length h] at hx
    obtain ⟨rfl, hi⟩ := hx.num
    exact entries_mapM h hi
  | post mi mz kzi z kzz noise y =>
    obtain ⟨v1, h1, h⟩ := bind_some h
    obtain ⟨K1, h2, h⟩ := bind_some h
    obtain ⟨z1, h3, h⟩ := bind_some h
    obtain ⟨B1, h4, h⟩ := bind_some h
    split at h
    · next hc =>
      obtain ⟨t1, h5, h⟩ := bind_some h
      obtain ⟨l1, l2, hz⟩ := zipCol_local h hlt
      have lt : t1.length = B1.c := by
        unfold Mat.tmulVec at h5
        split at h5
        · cases h5; simp
        · cases h5
      have hx' : SelF x B1.c is x' := by rw [← lt, l2]; exact hx
      obtain ⟨B1', g4, k4⟩ := hr.K _ _ _ _ h4 _ _ (.full _ _) _ _ hx'
      have h5' := (tmulVec_local h5 k4 hx'.lt).2
      show (r.M mi x').bind _ = _
      rw [hr.M _ _ _ h1 _ _ (l1 ▸ hx)]
      show (stepKz r kzz z noise).bind _ = _
      rw [h2]
      show (r.M mz z).bind _ = _
      rw [h3]
      show (r.K kzi z x').bind _ = _
      rw [g4]
      show (if _ then _ else _) = _
      rw [if_pos hc]
      show (Mat.tmulVec B1' _).bind _ = _
      rw [h5']
      exact hz
    · cases h
  | pseudo mi mz mx kzi kzz kzx kxx o =>
    obtain ⟨v1, h1, h⟩ := bind_some h
    obtain ⟨K1, h2, h⟩ := bind_some h
    obtain ⟨z1, h3, h⟩ := bind_some h
    obtain ⟨x1, h3', h⟩ := bind_some h
    obtain ⟨B1, h4, h⟩ := bind_some h
    split at h
    · next hc =>
      obtain ⟨t1, h5, h⟩ := bind_some h
      obtain ⟨l1, l2, hz⟩ := zipCol_local h hlt
      have lt : t1.length = B1.c := by
        unfold Mat.tmulVec at h5
        split at h5
        · cases h5; simp
        · cases h5
      have hx' : SelF x B1.c is x' := by rw [← lt, l2]; exact hx
      obtain ⟨B1', g4, k4⟩ := hr.K _ _ _ _ h4 _ _ (.full _ _) _ _ hx'
      have h5' := (tmulVec_local h5 k4 hx'.lt).2
      show (r.M mi x').bind _ = _
      rw [hr.M _ _ _ h1 _ _ (l1 ▸ hx)]
      show (stepIngredients r kzz kzx kxx o).bind _ = _
      rw [h2]
      show (r.M mz o.z).bind _ = _
      rw [h3]
      show (r.M mx o.x).bind _ = _
      rw [h3']
      show (r.K kzi o.z x').bind _ = _
      rw [g4]
      show (if _ then _ else _) = _
      rw [if_pos hc]
      show (Mat.tmulVec B1' _).bind _ = _
      rw [h5']
      exact hz
    · cases h

/-- Evaluation is local. -/
theorem ev_local : ∀ n, (ev lm lk n).Local
  | 0 => ⟨fun _ _ _ h => (by cases h), fun _ _ _ _ h => (by cases h)⟩
  | n + 1 => by
    have ih := ev_local n
    have hb := ev_big (lm := lm) (lk := lk) n
    refine ⟨fun a x v h is x' hx => stepM_local ih hb h hx, fun k x y A h is x' hx js y' hy => ?_⟩
    have atom : ∀ {x x' : Input} {n : ℕ} {is : List ℕ}, SelF x n is x' → (x'.IsAtom ↔ x.IsAtom) := by
      intro x x' n is hs
      rcases hs with ⟨rfl, _⟩ | ⟨_, hs⟩
      · rfl
      · cases hs <;> rfl
    by_cases hxy : x.IsAtom ∧ y.IsAtom
    · have h' : stepKAtom lm lk (ev lm lk n) k x y = some A := by
        obtain ⟨hx, hy⟩ := hxy
        cases x <;> cases y <;> first | exact h | exact hx.elim | exact hy.elim
      obtain ⟨A', hA', hE⟩ := stepKAtom_local ih hb h' hx hy
      refine ⟨A', ?_, hE⟩
      rw [← hA']
      have h1 := (atom hx).2 hxy.1
      have h2 := (atom hy).2 hxy.2
      cases x' <;> cases y' <;> first | rfl | exact h1.elim | exact h2.elim
    · rw [ev_K_tup hxy] at h
      rw [ev_K_tup (by rw [atom hx, atom hy]; exact hxy)]
      exact tupK_local ih hb h hx hy

end

end Stheno
