import Verif.EvalTake
import Verif.Sizes

/-!
# Which elements `B.take` takes

`_take_x` selects the elements of the input at the positions at which the mask is true.
-/

namespace Stheno

open Matrix

/-- The positions at which a mask is true, from the first to the last. -/
def positions (mask : List Bool) : List ℕ := (List.range mask.length).filter fun i => mask.getD i false

theorem pick_append {α : Type} : ∀ {xs ys : List α} {a b : List Bool}, xs.length = a.length →
    pick (xs ++ ys) (a ++ b) = pick xs a ++ pick ys b
  | [], ys, [], b, _ => rfl
  | x :: xs, ys, true :: a, b, h => by
    simp only [List.cons_append, pick, pick_append (xs := xs) (ys := ys) (a := a) (b := b) (by simpa using h)]
  | x :: xs, ys, false :: a, b, h => by
    simp only [List.cons_append, pick, pick_append (xs := xs) (ys := ys) (a := a) (b := b) (by simpa using h)]

theorem pick_map {α β : Type} (f : α → β) : ∀ (xs : List α) (a : List Bool), pick (xs.map f) a = (pick xs a).map f
  | [], a => by cases a <;> rfl
  | x :: xs, [] => rfl
  | x :: xs, true :: a => by simp only [List.map_cons, pick, pick_map f xs a]
  | x :: xs, false :: a => by simp only [List.map_cons, pick, pick_map f xs a]

/-- What `pick` does. -/
theorem pick_eq {α : Type} : ∀ (xs : List α) (a : List Bool), pick xs a = ((xs.zip a).filter (·.2)).map (·.1)
  | [], a => by cases a <;> rfl
  | x :: xs, [] => rfl
  | x :: xs, true :: a => by simp [pick, pick_eq xs a]
  | x :: xs, false :: a => by simp [pick, pick_eq xs a]

theorem filter_map {α β : Type} (f : α → β) (p : β → Bool) (l : List α) : (l.map f).filter p = (l.filter (p ∘ f)).map f :=
  List.filter_map

theorem positions_cons (b : Bool) (a : List Bool) :
    positions (b :: a) = (if b then [0] else []) ++ (positions a).map (· + 1) := by
  unfold positions
  rw [List.length_cons, List.range_succ_eq_map, List.filter_cons]
  have : (List.map Nat.succ (List.range a.length)).filter (fun i => (b :: a).getD i false) =
      ((List.range a.length).filter fun i => a.getD i false).map (· + 1) := by
    rw [filter_map]; rfl
  rw [this]
  cases b <;> rfl

/-- `positions` are the rows that `pick` picks. -/
theorem pick_range : ∀ a : List Bool, pick (List.range a.length) a = positions a
  | [] => rfl
  | b :: a => by
    rw [positions_cons, List.length_cons, List.range_succ_eq_map]
    have : pick (List.map Nat.succ (List.range a.length)) a = (positions a).map (· + 1) := by
      rw [pick_map, pick_range a]
    cases b
    · exact this
    · show 0 :: _ = _
      rw [this]; rfl

theorem positions_append (a b : List Bool) : positions (a ++ b) = positions a ++ (positions b).map (· + a.length) := by
  rw [← pick_range, List.length_append, List.range_add, pick_append (by simp), pick_range, pick_map, pick_range]
  congr 1
  exact List.map_congr_left fun i _ => Nat.add_comm _ _

theorem positions_lt {a : List Bool} : ∀ i ∈ positions a, i < a.length := by
  intro i hi
  exact List.mem_range.1 (List.mem_filter.1 hi).1

theorem positions_length : ∀ mask : List Bool, (positions mask).length = mask.count true
  | [] => rfl
  | b :: a => by rw [positions_cons]; cases b <;> simp [positions_length a]

/-- The picked entries. -/
theorem pick_entries {α : Type} (d : α) : ∀ {xs : List α} {a : List Bool}, xs.length = a.length →
    pick xs a = entries d xs (positions a)
  | [], [], _ => rfl
  | x :: xs, b :: a, h => by
    have ih := pick_entries d (xs := xs) (a := a) (by simpa using h)
    rw [positions_cons]
    unfold entries at ih ⊢
    rw [List.map_append, List.map_map]
    have : ((fun i => (x :: xs).getD i d) ∘ fun i => i + 1) = fun i => xs.getD i d := by funext i; rfl
    rw [this, ← ih]
    cases b <;> rfl

/-- What `B.submatrix` does. -/
theorem Mat.take_eq {A : Mat} {a : List Bool} (hr : A.r = a.length) (hc : A.c = a.length) :
    A.take a = some (A.sub2 (positions a) (positions a)) := by
  unfold Mat.take
  rw [if_pos ⟨hr, hc⟩, pick_range]; rfl

/-! ## Selected inputs -/

mutual
/-- Inputs that consist of FDDs of single-output processes. -/
def Input.Fdds (C : PId → Prop) : Input → Prop
  | .num _ => False
  | .fdd p _ => ¬ C p
  | .tup xs => FddsL C xs
/-- All inputs of a tuple. -/
def FddsL (C : PId → Prop) : List Input → Prop
  | [] => True
  | x :: xs => x.Fdds C ∧ FddsL C xs
end

mutual
theorem Input.Fdds.flat {C : PId → Prop} : ∀ {x : Input}, x.Fdds C → x.Flat C
  | .num _, h => h.elim
  | .fdd _ _, h => h
  | .tup xs, h => FddsL.flat (xs := xs) h
theorem FddsL.flat {C : PId → Prop} : ∀ {xs : List Input}, FddsL C xs → FlatL C xs
  | [], _ => trivial
  | _ :: _, h => ⟨Input.Fdds.flat h.1, FddsL.flat h.2⟩
end

mutual
theorem Input.Fdds.size {C : PId → Prop} {d : ℕ} : ∀ {x : Input}, x.Fdds C → broadSize d x = numElements x
  | .num _, h => h.elim
  | .fdd _ _, _ => rfl
  | .tup xs, h => FddsL.size (xs := xs) h
theorem FddsL.size {C : PId → Prop} {d : ℕ} : ∀ {xs : List Input}, FddsL C xs → broadSizeL d xs = numElementsL xs
  | [], _ => rfl
  | x :: xs, h => by
    show broadSize d x + broadSizeL d xs = numElements x + numElementsL xs
    rw [Input.Fdds.size h.1, FddsL.size h.2]
end

section
variable {C : PId → Prop} {kern : PId → Option KExpr}

/-- The loop over a tuple. -/
theorem takeTup_sel {tk : Input → List Bool → Option Input} {sz : Input → Option ℕ} : ∀ {xs : List Input} {mask : List Bool}
    {ys : List Input}, takeTup tk sz xs mask = some ys → mask.length = numElementsL xs →
    (∀ x ∈ xs, ∀ s, sz x = some s → s = numElements x) →
    (∀ x ∈ xs, ∀ mask y, tk x mask = some y → mask.length = numElements x → Sel x (positions mask) y) →
    SelL xs (positions mask) ys
  | [], mask, ys, h, hl, _, _ => by
    cases h
    cases List.eq_nil_of_length_eq_zero hl
    exact .nil
  | x :: xs, mask, ys, h, hl, hs, ht => by
    obtain ⟨s, h1, h⟩ := bind_some h
    obtain ⟨y, h2, h⟩ := bind_some h
    obtain ⟨ys, h3, h⟩ := bind_some h
    cases h
    have e := hs x (List.mem_cons_self ..) s h1
    subst e
    simp only [numElementsL] at hl
    have l1 : (mask.take (numElements x)).length = numElements x := by rw [List.length_take]; omega
    have l2 : (mask.drop (numElements x)).length = numElementsL xs := by rw [List.length_drop]; omega
    have := SelL.cons (ht x (List.mem_cons_self ..) _ _ h2 l1)
      (takeTup_sel h3 l2 (fun x hx => hs x (List.mem_cons_of_mem _ hx)) fun x hx => ht x (List.mem_cons_of_mem _ hx))
    rw [← List.take_append_drop (numElements x) mask, positions_append, l1]
    exact this

theorem takeRows_sel {xs ys : List Pt} {mask : List Bool} (h : takeRows xs mask = some ys) :
    Sel (.num xs) (positions mask) (.num ys) := by
  unfold takeRows at h
  split at h
  · next hl =>
    cases h
    rw [pick_entries [] hl]
    exact .num fun i hi => hl ▸ positions_lt i hi
  · cases h

/-- `_take_x` for single-output processes. -/
theorem takeX_slim : ∀ (n : ℕ) {k : KExpr}, k.Slim C → ∀ {x : Input} {mask : List Bool} {y : Input},
    takeX kern n k x mask = some y → mask.length = numElements x → Sel x (positions mask) y
  | 0, _, _, _, _, _, h, _ => by cases h
  | n + 1, k, hk, .tup xs, mask, y, h, hl => by
    have h : (takeTup (takeX kern n k) (inferSize k) xs mask).bind (fun ys => pure (.tup ys)) = some y := by
      cases k <;> exact h
    obtain ⟨ys, h1, h⟩ := bind_some h
    cases h
    refine .tup (takeTup_sel h1 hl (fun x _ s hs => ?_) fun x _ mask y hy hl => takeX_slim n hk hy hl)
    rw [← broadSize_one]; exact inferSize_broad hk.dim hs
  | n + 1, k, hk, .num xs, mask, y, h, hl => by
    have h : (takeRows xs mask).bind (fun ys => pure (.num ys)) = some y := by
      cases k <;> first | exact h | exact hk.elim
    obtain ⟨ys, h1, h⟩ := bind_some h
    cases h
    exact takeRows_sel h1
  | n + 1, k, hk, .fdd p x, mask, y, h, hl => by
    cases k <;> first | cases h | exact hk.elim

/-- `_take_x` for cross processes at FDDs. -/
theorem takeX_fdds (hkern : ∀ p k, ¬ C p → kern p = some k → k.Slim C) : ∀ (n : ℕ) {k : KExpr} {d : ℕ}, d ≠ 0 → k.Broad C d →
    ∀ {x : Input} {mask : List Bool} {y : Input}, x.Fdds C → takeX kern n k x mask = some y → mask.length = numElements x →
    Sel x (positions mask) y
  | 0, _, _, _, _, _, _, _, _, h, _ => by cases h
  | n + 1, k, d, h0, hk, .tup xs, mask, y, hx, h, hl => by
    have h : (takeTup (takeX kern n k) (inferSize k) xs mask).bind (fun ys => pure (.tup ys)) = some y := by
      cases k <;> exact h
    obtain ⟨ys, h1, h⟩ := bind_some h
    cases h
    have mem : ∀ {xs : List Input}, FddsL C xs → ∀ x ∈ xs, x.Fdds C := by
      intro xs
      induction xs with
      | nil => intro _ x hx; cases hx
      | cons a xs ih =>
        intro h x hx
        rcases List.mem_cons.1 hx with rfl | hx
        · exact h.1
        · exact ih h.2 x hx
    refine .tup (takeTup_sel h1 hl (fun x hm s hs => ?_) fun x hm mask y hy hl => takeX_fdds hkern n h0 hk (mem hx x hm) hy hl)
    rw [← (mem hx x hm).size (d := d)]; exact inferSize_broad (hk.dim h0) hs
  | n + 1, k, d, h0, hk, .fdd p x, mask, y, hx, h, hl => by
    cases k with
    | mok m ps =>
      simp only [takeX] at h
      split at h
      · obtain ⟨k', h1, h⟩ := bind_some h
        obtain ⟨y', h2, h⟩ := bind_some h
        cases h
        exact .fdd (takeX_slim n (hkern p k' hx h1) h2 hl)
      · cases h
    | _ => cases h
  | n + 1, k, d, h0, hk, .num xs, mask, y, hx, h, hl => hx.elim

/-- `_take_x` for cross processes at numeric inputs: either the kernel is a multi-output kernel and the elements are those of
the FDDs of all outputs, or there is one output. -/
theorem takeX_num (hkern : ∀ p k, ¬ C p → kern p = some k → k.Slim C) (n : ℕ) {k : KExpr} {d : ℕ} (h0 : d ≠ 0)
    (hk : k.Broad C d) {xs : List Pt} {mask : List Bool} {y : Input} (h : takeX kern n k (.num xs) mask = some y)
    (hl : mask.length = xs.length * d) :
    (∃ m ps, k = .mok m ps ∧ Sel (.tup (ps.map (.fdd · (.num xs)))) (positions mask) y) ∨
    (xs.length * d = xs.length ∧ Sel (.num xs) (positions mask) y) := by
  cases n with
  | zero => cases h
  | succ n =>
    have other : (takeRows xs mask).bind (fun ys => pure (Input.num ys)) = some y →
        xs.length * d = xs.length ∧ Sel (.num xs) (positions mask) y := by
      intro h
      obtain ⟨ys, h1, h⟩ := bind_some h
      cases h
      refine ⟨?_, takeRows_sel h1⟩
      unfold takeRows at h1
      split at h1
      · next e => rw [← hl, e]
      · cases h1
    cases k with
    | mok m ps =>
      left
      refine ⟨m, ps, rfl, ?_⟩
      simp only [takeX] at h
      split at h
      · next hc =>
        clear hc
        refine takeX_fdds hkern n h0 hk ?_ h ?_
        · show FddsL C _
          have := hk.2
          clear h hk
          induction ps with
          | nil => exact trivial
          | cons p ps ih => exact ⟨this p (by simp), ih fun p hp => this p (by simp [hp])⟩
        · show _ = numElementsL _
          rw [hl, ← hk.1]
          clear h hk
          induction ps with
          | nil => rfl
          | cons p ps ih =>
            simp only [List.map_cons, numElementsL, List.length_cons, numElements]
            rw [← ih]; ring
      · cases h
    | post => exact .inr (other h)
    | pseudo => exact .inr (other h)
    | _ => exact hk.elim

end

/-! ## `B.take` does not raise -/

mutual
/-- Inputs without FDDs. -/
def Input.Raw : Input → Prop
  | .num _ => True
  | .fdd _ _ => False
  | .tup xs => RawL xs
/-- All inputs of a tuple. -/
def RawL : List Input → Prop
  | [] => True
  | x :: xs => x.Raw ∧ RawL xs
end

section
variable {C : PId → Prop} {kern : PId → Option KExpr} {k : KExpr}

theorem takeX_tup {n : ℕ} {xs ys : List Input} {mask : List Bool}
    (h : takeTup (takeX kern n k) (inferSize k) xs mask = some ys) : takeX kern (n + 1) k (.tup xs) mask = some (.tup ys) := by
  have : takeX kern (n + 1) k (.tup xs) mask = (takeTup (takeX kern n k) (inferSize k) xs mask).bind (fun ys => pure (.tup ys)) := by
    cases k <;> rfl
  rw [this, h]; rfl

mutual
theorem takeX_total (hk : k.Slim C) : ∀ (x : Input) {s : ℕ}, inferSize k x = some s → x.Raw → ∃ N, ∀ n ≥ N, ∀ mask : List Bool,
    mask.length = numElements x → ∃ y, takeX kern n k x mask = some y
  | .num xs, s, _, _ => by
    refine ⟨1, fun n hn mask hl => ?_⟩
    obtain ⟨n, rfl⟩ : ∃ n', n = n' + 1 := ⟨n - 1, by omega⟩
    refine ⟨.num (pick xs mask), ?_⟩
    have : takeX kern (n + 1) k (.num xs) mask = (takeRows xs mask).bind (fun ys => pure (.num ys)) := by
      cases k <;> first | rfl | exact hk.elim
    rw [this]
    unfold takeRows
    rw [if_pos (show xs.length = mask.length from hl.symm)]; rfl
  | .tup xs, s, hs, hx => by
    obtain ⟨N, hN⟩ := takeXL_total hk xs hs hx
    refine ⟨N + 1, fun n hn mask hl => ?_⟩
    obtain ⟨n, rfl⟩ : ∃ n', n = n' + 1 := ⟨n - 1, by omega⟩
    obtain ⟨ys, hy⟩ := hN n (by omega) mask hl
    exact ⟨_, takeX_tup hy⟩
  | .fdd _ _, _, _, hx => hx.elim
theorem takeXL_total (hk : k.Slim C) : ∀ (xs : List Input) {s : ℕ}, inferSizeL k xs = some s → RawL xs → ∃ N, ∀ n ≥ N,
    ∀ mask : List Bool, mask.length = numElementsL xs → ∃ ys, takeTup (takeX kern n k) (inferSize k) xs mask = some ys
  | [], _, _, _ => ⟨0, fun _ _ _ _ => ⟨_, rfl⟩⟩
  | x :: xs, s, hs, hx => by
    obtain ⟨s1, h1, hs⟩ := bind_some hs
    obtain ⟨s2, h2, _⟩ := bind_some hs
    obtain ⟨N1, k1⟩ := takeX_total hk x h1 hx.1
    obtain ⟨N2, k2⟩ := takeXL_total hk xs h2 hx.2
    refine ⟨max N1 N2, fun n hn mask hl => ?_⟩
    have e : s1 = numElements x := by rw [← broadSize_one]; exact inferSize_broad hk.dim h1
    subst e
    simp only [numElementsL] at hl
    obtain ⟨y, hy⟩ := k1 n (by omega) (mask.take (numElements x)) (by rw [List.length_take]; omega)
    obtain ⟨ys, hys⟩ := k2 n (by omega) (mask.drop (numElements x)) (by rw [List.length_drop]; omega)
    refine ⟨y :: ys, ?_⟩
    unfold takeTup
    rw [h1]
    show (takeX kern n k x _).bind _ = _
    rw [hy]
    show (takeTup (takeX kern n k) (inferSize k) xs _).bind _ = _
    rw [hys]; rfl
end

mutual
/-- The size of the selected input can be inferred. -/
theorem inferSize_sel : ∀ {x : Input} {is : List ℕ} {y : Input}, Sel x is y → ∀ {s : ℕ}, inferSize k x = some s →
    ∃ s', inferSize k y = some s'
  | _, _, _, .num _, s, hs => by
    obtain ⟨d, hd, hs⟩ := bind_some hs
    cases d with
    | none => cases hs
    | some d => exact ⟨_, by simp only [inferSize]; rw [hd]; rfl⟩
  | _, _, _, .fdd _, _, _ => ⟨_, rfl⟩
  | _, _, _, .tup h, s, hs => inferSizeL_sel h hs
theorem inferSizeL_sel : ∀ {xs : List Input} {is : List ℕ} {ys : List Input}, SelL xs is ys → ∀ {s : ℕ}, inferSizeL k xs = some s →
    ∃ s', inferSizeL k ys = some s'
  | _, _, _, .nil, _, _ => ⟨_, rfl⟩
  | _, _, _, .cons h hs, s, e => by
    obtain ⟨s1, h1, e⟩ := bind_some e
    obtain ⟨s2, h2, _⟩ := bind_some e
    obtain ⟨t1, g1⟩ := inferSize_sel h h1
    obtain ⟨t2, g2⟩ := inferSizeL_sel hs h2
    refine ⟨t1 + t2, ?_⟩
    simp only [inferSizeL]
    rw [g1, g2]; rfl
end

end

/-! ## Means and kernels of cross processes -/

section
variable {C : PId → Prop} {ms : List AMeas} (h : ∀ (m : MId) (a : AMeas), ms[m]? = some a → ∀ e ∈ a.defs, Sorted C e)
include h

/-- If the kernel of a cross process is a multi-output kernel, then its mean is the multi-output mean of the same
processes. -/
theorem spec_paired : ∀ (n : ℕ) (m : MId) {i : PId} {m' : MId} {ps : List PId} {a : MExpr}, C i →
    specKAux ms n m i i = some (.mok m' ps) → specMAux ms n m i = some a → a = .mom m' ps
  | 0, m, i, _, _, _, _, hk, _ => by cases hk
  | n + 1, m, i, m', ps, a, hi, hk, ha => by
    have step : ∀ {bk : PId → PId → Option KExpr} {bm : PId → Option MExpr} {basePs : List PId},
        (∀ {i m' ps a}, C i → bk i i = some (.mok m' ps) → bm i = some a → a = .mom m' ps) → ∀ {es : List (PId × ProcDef)},
        (∀ e ∈ es, Sorted C e) → ∀ {i m' ps a}, C i → lookKDefs m bk basePs es i i = some (.mok m' ps) →
          lookMDefs m bm basePs es i = some a → a = .mom m' ps := by
      intro bk bm basePs hb es
      induction es with
      | nil =>
        intro _ i m' ps a hi hk ha
        unfold lookKDefs at hk
        unfold lookMDefs at ha
        split at hk
        · split at ha
          · exact hb hi hk ha
          · cases ha
        · cases hk
      | cons e es ih =>
        intro he i m' ps a hi hk ha
        obtain ⟨p, d⟩ := e
        unfold lookKDefs at hk
        unfold lookMDefs at ha
        by_cases e : i = p
        · subst e
          rw [if_pos rfl] at ha
          rw [if_pos rfl, if_pos rfl] at hk
          have hw := (he (i, d) (List.mem_cons_self ..)).2 hi
          cases d with
          | cross ps => cases hk; cases ha; rfl
          | copy p => exact ih (fun e hm => he e (List.mem_cons_of_mem _ hm)) hw hk ha
          | _ => exact hw.elim
        · rw [if_neg e] at ha
          rw [if_neg e, if_neg e] at hk
          exact ih (fun e hm => he e (List.mem_cons_of_mem _ hm)) hi hk ha
    unfold specKAux at hk
    unfold specMAux at ha
    split at hk
    · cases hk
    · next b hb =>
      rw [hb] at ha
      refine step (fun {i m' ps a} hi hk ha => ?_) (h m b hb) hi hk ha
      split at hk
      · cases hk
      · next u hu =>
        rw [hu] at ha
        have same : ∀ {i k a}, obsKernel (specKAux ms n u.prior) none u.obs i i = some k →
            obsMean (specMAux ms n u.prior) (specKAux ms n u.prior) none u.obs i = some a →
            (∃ m' ps, k = .mok m' ps) → specKAux ms n u.prior i i = some k ∧ specMAux ms n u.prior i = some a := by
          intro i k a hk ha hm
          cases ho : u.obs with
          | exact p x noise y =>
            rw [ho] at hk ha
            unfold obsKernel at hk
            unfold obsMean at ha
            simp only at hk ha
            split at hk
            · next e => rw [if_pos e] at ha; exact ⟨hk, ha⟩
            · obtain ⟨_, _, hk⟩ := bind_some hk
              obtain ⟨_, _, hk⟩ := bind_some hk
              obtain ⟨_, _, hk⟩ := bind_some hk
              obtain ⟨_, _, hk⟩ := bind_some hk
              cases hk
              obtain ⟨_, _, e⟩ := hm
              cases e
          | pseudo pu p o =>
            rcases obsKernel_cases hk with hk' | ⟨_, _, _, _, _, _, _, _, _, _, _, _, rfl⟩ | ⟨_, _, _, _, _, _, _, _, _, _, _, _, _, rfl⟩
            · rw [ho] at hk
              unfold obsKernel at hk
              simp only at hk
              obtain ⟨_, _, hk⟩ := bind_some hk
              obtain ⟨_, _, hk⟩ := bind_some hk
              obtain ⟨_, _, hk⟩ := bind_some hk
              obtain ⟨_, _, hk⟩ := bind_some hk
              obtain ⟨_, _, hk⟩ := bind_some hk
              split at hk
              · obtain ⟨_, _, hk⟩ := bind_some hk
                cases hk
                obtain ⟨_, _, e⟩ := hm
                cases e
              · cases hk
            · obtain ⟨_, _, e⟩ := hm
              cases e
            · obtain ⟨_, _, e⟩ := hm
              cases e
        obtain ⟨h1, h2⟩ := same hk ha ⟨_, _, rfl⟩
        exact spec_paired n u.prior hi h1 h2

end

end Stheno
