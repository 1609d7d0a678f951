import Verif.Realise
import Verif.EvalMono

/-!
# Elementwise evaluation and the diagonal

The two evaluators for kernels, `pairwise` and `elwise`, agree on the diagonal. For kernels that do not have
multi-output parts this is shown for all tables, without reading kernels as covariances.
-/

namespace Stheno

open Matrix

/-- Kernels without multi-output kernels, except in the parts of posteriors that involve observations. -/
def KExpr.Narrow : KExpr → Prop
  | .prim _ | .zero | .tprod _ _ | .diff _ _ _ => True
  | .mok _ _ => False
  | .adk k | .scale _ k | .rev k | .pre _ _ k => k.Narrow
  | .add a b | .mul a b => a.Narrow ∧ b.Narrow
  | .post kij _ _ _ _ _ | .pseudo kij _ _ _ _ _ _ => kij.Narrow

section
variable {lm : MId → PId → Option MExpr} {lk : MId → PId → PId → Option KExpr}

open Classical in
/-- The number of values of a function. -/
noncomputable def fnSize (lm : MId → PId → Option MExpr) (lk : MId → PId → PId → Option KExpr) (f : Fn) (x : Input) : ℕ :=
  if h : ∃ u n, stepFn lm (ev lm lk n) f x = some u then h.choose.length else 0

theorem fnSize_eq {f : Fn} {x : Input} {u : List ℝ} {n : ℕ} (h : stepFn lm (ev lm lk n) f x = some u) :
    u.length = fnSize lm lk f x := by
  have hx : ∃ u n, stepFn lm (ev lm lk n) f x = some u := ⟨u, n, h⟩
  unfold fnSize
  rw [dif_pos hx]
  obtain ⟨n', hn'⟩ := hx.choose_spec
  have h1 := stepFn_mono (fun _ _ => OLe.rfl) (ev_le (Nat.le_max_left n n')) f x u h
  rw [stepFn_mono (fun _ _ => OLe.rfl) (ev_le (Nat.le_max_right n n')) f x _ hn'] at h1
  cases h1; rfl

/-- The number of rows (`true`) or columns (`false`) of a matrix of a kernel at an input that is not a tuple. -/
noncomputable def atomSize (lm : MId → PId → Option MExpr) (lk : MId → PId → PId → Option KExpr) : Bool → KExpr → Input → ℕ
  | _, .prim _, x | _, .zero, x | _, .diff _ _ _, x => numElements x
  | _, .mok _ _, _ => 0
  | b, .adk k, x | b, .scale _ k, x => atomSize lm lk b k x
  | b, .add k _, x | b, .mul k _, x => atomSize lm lk b k x
  | true, .tprod f _, x => fnSize lm lk f x
  | false, .tprod _ g, x => fnSize lm lk g x
  | b, .rev k, x => atomSize lm lk (!b) k x
  | true, .pre t _ k, x => (t.apply x).elim 0 (atomSize lm lk true k)
  | false, .pre _ u k, x => (u.apply x).elim 0 (atomSize lm lk false k)
  | b, .post kij _ _ _ _ _, x | b, .pseudo kij _ _ _ _ _ _, x => atomSize lm lk b kij x

mutual
/-- The number of rows or columns of a matrix of a kernel. -/
noncomputable def side (lm : MId → PId → Option MExpr) (lk : MId → PId → PId → Option KExpr) (b : Bool) (k : KExpr) : Input → ℕ
  | .num xs => atomSize lm lk b k (.num xs)
  | .fdd p x => atomSize lm lk b k (.fdd p x)
  | .tup xs => sideL lm lk b k xs
/-- The sum over a tuple. -/
noncomputable def sideL (lm : MId → PId → Option MExpr) (lk : MId → PId → PId → Option KExpr) (b : Bool) (k : KExpr) : List Input → ℕ
  | [] => 0
  | x :: xs => side lm lk b k x + sideL lm lk b k xs
end

theorem side_atom {b : Bool} {k : KExpr} {x : Input} (h : x.IsAtom) : side lm lk b k x = atomSize lm lk b k x := by
  cases x <;> first | rfl | exact h.elim

theorem sideL_asTup {b : Bool} {k : KExpr} {x : Input} : sideL lm lk b k (asTup x) = side lm lk b k x := by
  cases x <;> simp [asTup, sideL, side]

theorem mapM_returns {α β : Type} {f : α → Option β} : ∀ {l : List α} {l' : List β}, l.mapM f = some l' →
    ∀ a ∈ l, ∃ b, f a = some b
  | [], _, _, _, ha => (List.not_mem_nil ha).elim
  | a :: l, l', h, c, hc => by
    obtain ⟨b, bs, hb, hbs, rfl⟩ := mapM_cons_some h
    rcases List.mem_cons.1 hc with rfl | hc
    · exact ⟨b, hb⟩
    · exact mapM_returns hbs c hc

section Tup
variable {r : Ev} {k : KExpr} {R C : Input → ℕ}

theorem row_size (hr : ∀ x y A, r.K k x y = some A → A.r = R x ∧ A.c = C y) {x : Input} :
    ∀ {ys : List Input} {row : List Mat} {M : Mat}, ys.mapM (fun y => r.K k x y) = some row → Mat.hcatL row = some M →
      M.r = R x ∧ M.c = (ys.map C).sum
  | [], row, M, h, hM => by simp at h; subst h; simp [Mat.hcatL] at hM
  | [y], row, M, h, hM => by
    obtain ⟨A, As, hA, hAs, rfl⟩ := mapM_cons_some h
    simp at hAs; subst hAs
    simp [Mat.hcatL] at hM; subst hM
    simpa using hr _ _ _ hA
  | y :: y' :: ys, row, M, h, hM => by
    obtain ⟨A, As, hA, hAs, rfl⟩ := mapM_cons_some h
    obtain ⟨A', As', hA', hAs', rfl⟩ := mapM_cons_some hAs
    obtain ⟨N, hN, hM⟩ := bind_some (show (do Mat.hcat A (← Mat.hcatL (A' :: As'))) = some M from hM)
    obtain ⟨e, rfl⟩ := hcat_some hM
    obtain ⟨h1, h2⟩ := row_size hr hAs hN
    obtain ⟨h3, h4⟩ := hr _ _ _ hA
    exact ⟨h3, by simp only [h4, h2, List.map_cons, List.sum_cons]⟩

/-- The entries of a row of blocks. -/
theorem row_entry (hr : ∀ x y A, r.K k x y = some A → A.r = R x ∧ A.c = C y) {x y : Input} {A : Mat}
    (hA : r.K k x y = some A) (i : ℕ) {j : ℕ} (hj : j < C y) : ∀ {ps qs : List Input} {row : List Mat} {M : Mat},
    (ps ++ y :: qs).mapM (fun y => r.K k x y) = some row → Mat.hcatL row = some M →
      M.e i ((ps.map C).sum + j) = A.e i j
  | [], [], row, M, h, hM => by
    obtain ⟨A', As, hA', hAs, rfl⟩ := mapM_cons_some h
    simp at hAs; subst hAs
    simp [Mat.hcatL] at hM; subst hM
    rw [hA] at hA'; cases hA'
    simp
  | [], q :: qs, row, M, h, hM => by
    obtain ⟨A', As, hA', hAs, rfl⟩ := mapM_cons_some h
    obtain ⟨B, Bs, hB, hBs, rfl⟩ := mapM_cons_some hAs
    obtain ⟨N, hN, hM⟩ := bind_some (show (do Mat.hcat A' (← Mat.hcatL (B :: Bs))) = some M from hM)
    obtain ⟨e, rfl⟩ := hcat_some hM
    rw [hA] at hA'; cases hA'
    show (if ([].map C).sum + j < A.c then A.e i (([].map C).sum + j) else _) = _
    rw [List.map_nil, List.sum_nil, Nat.zero_add, if_pos ((hr _ _ _ hA).2 ▸ hj)]
  | p :: ps, qs, row, M, h, hM => by
    obtain ⟨A', As, hA', hAs, rfl⟩ := mapM_cons_some h
    have hne : As ≠ [] := by
      rintro rfl
      cases ps with
      | nil => obtain ⟨_, _, _, _, h⟩ := mapM_cons_some hAs; cases h
      | cons p ps => obtain ⟨_, _, _, _, h⟩ := mapM_cons_some hAs; cases h
    obtain ⟨B, Bs, rfl⟩ := List.exists_cons_of_ne_nil hne
    obtain ⟨N, hN, hM⟩ := bind_some (show (do Mat.hcat A' (← Mat.hcatL (B :: Bs))) = some M from hM)
    obtain ⟨e, rfl⟩ := hcat_some hM
    have ih := row_entry hr hA i hj (ps := ps) (qs := qs) hAs hN
    have hc := (hr _ _ _ hA').2
    show (if ((p :: ps).map C).sum + j < A'.c then _ else N.e i (((p :: ps).map C).sum + j - A'.c)) = _
    rw [List.map_cons, List.sum_cons, if_neg (by omega), ← ih]
    congr 1; omega

/-- The size of a matrix of blocks. -/
theorem tupK_size (hr : ∀ x y A, r.K k x y = some A → A.r = R x ∧ A.c = C y) {ys : List Input} :
    ∀ {xs : List Input} {A : Mat}, tupK r k xs ys = some A → A.r = (xs.map R).sum ∧ A.c = (ys.map C).sum
  | [], A, h => by
    obtain ⟨rows, hrows, h⟩ := bind_some h
    simp at hrows; subst hrows; simp [Mat.vcatL] at h
  | [x], A, h => by
    obtain ⟨rows, hrows, h⟩ := bind_some h
    obtain ⟨B, Bs, hB, hBs, rfl⟩ := mapM_cons_some hrows
    simp at hBs; subst hBs
    simp [Mat.vcatL] at h; subst h
    obtain ⟨row, hrow, hB⟩ := bind_some hB
    obtain ⟨h1, h2⟩ := row_size hr hrow hB
    exact ⟨by simpa using h1, h2⟩
  | x :: x' :: xs, A, h => by
    obtain ⟨rows, hrows, h⟩ := bind_some h
    obtain ⟨B, Bs, hB, hBs, rfl⟩ := mapM_cons_some hrows
    obtain ⟨B', Bs', hB', hBs', rfl⟩ := mapM_cons_some hBs
    obtain ⟨N, hN, hM⟩ := bind_some (show (do Mat.vcat B (← Mat.vcatL (B' :: Bs'))) = some A from h)
    obtain ⟨e, rfl⟩ := vcat_some hM
    have ih : N.r = ((x' :: xs).map R).sum ∧ N.c = (ys.map C).sum :=
      tupK_size hr (xs := x' :: xs) (show tupK r k (x' :: xs) ys = some N by
        unfold tupK; rw [hBs]; exact hN)
    obtain ⟨row, hrow, hB⟩ := bind_some hB
    obtain ⟨h1, h2⟩ := row_size hr hrow hB
    refine ⟨?_, h2⟩
    show B.r + N.r = _
    rw [h1, ih.1]; simp

/-- Elementwise evaluation of tuples runs along the diagonal of the blocks. -/
theorem tup_diag (hr : ∀ x y A, r.K k x y = some A → A.r = R x ∧ A.c = C y)
    (hd : ∀ x y u A, r.D k x y = some u → r.K k x y = some A → u.length = A.r ∧ u.length = A.c ∧
      ∀ i < u.length, u[i]? = some (A.e i i)) :
    ∀ {xs ys ps : List Input} {us : List (List ℝ)} {M : Mat}, xs.length = ys.length →
      (xs.zip ys).mapM (fun xy => r.D k xy.1 xy.2) = some us → tupK r k xs (ps ++ ys) = some M →
      us.flatten.length = (xs.map R).sum ∧ us.flatten.length = (ys.map C).sum ∧
      ∀ i < us.flatten.length, us.flatten[i]? = some (M.e i ((ps.map C).sum + i))
  | [], [], ps, us, M, _, hu, h => by
    simp at hu; subst hu
    simp
  | x :: xs, y :: ys, ps, us, M, hl, hu, h => by
    obtain ⟨u, us, hu', hus, rfl⟩ := mapM_cons_some hu
    obtain ⟨rows, hrows, h⟩ := bind_some h
    obtain ⟨B, Bs, hB, hBs, rfl⟩ := mapM_cons_some hrows
    obtain ⟨row, hrow, hB⟩ := bind_some hB
    obtain ⟨A, hA⟩ : ∃ A, r.K k x y = some A := by
      exact mapM_returns hrow y (by simp)
    obtain ⟨d1, d2, d3⟩ := hd _ _ _ _ hu' hA
    obtain ⟨s1, s2⟩ := hr _ _ _ hA
    obtain ⟨b1, b2⟩ := row_size hr hrow hB
    have hhead : ∀ i < u.length, u[i]? = some (B.e i ((ps.map C).sum + i)) := by
      intro i hi
      rw [d3 i hi, row_entry hr hA i (by omega) hrow hB]
    have hcat : us.flatten.length = (xs.map R).sum ∧ us.flatten.length = (ys.map C).sum ∧
        ∀ i < us.flatten.length, us.flatten[i]? = some (M.e (u.length + i) ((ps.map C).sum + (u.length + i))) := by
      cases xs with
      | nil =>
        cases ys with
        | nil => simp at hus; subst hus; simp
        | cons => simp at hl
      | cons x' xs =>
        have hne : Bs ≠ [] := by
          rintro rfl
          obtain ⟨_, _, _, _, h⟩ := mapM_cons_some hBs; cases h
        obtain ⟨B', Bs', rfl⟩ := List.exists_cons_of_ne_nil hne
        obtain ⟨N, hN, hM⟩ := bind_some (show (do Mat.vcat B (← Mat.vcatL (B' :: Bs'))) = some M from h)
        obtain ⟨e, rfl⟩ := vcat_some hM
        obtain ⟨i1, i2, i3⟩ := tup_diag hr hd (xs := x' :: xs) (ys := ys) (ps := ps ++ [y]) (M := N)
          (by simpa using hl) hus (by unfold tupK; rw [List.append_assoc]; exact (show _ = _ by
            simp only [List.singleton_append]; rw [hBs]; exact hN))
        refine ⟨i1, i2, fun i hi => ?_⟩
        rw [i3 i hi]
        show _ = some (if u.length + i < B.r then _ else N.e (u.length + i - B.r) _)
        rw [if_neg (by omega)]
        congr 2
        · omega
        · simp; omega
    have hM : ∀ i < u.length, M.e i ((ps.map C).sum + i) = B.e i ((ps.map C).sum + i) := by
      intro i hi
      cases Bs with
      | nil => simp [Mat.vcatL] at h; subst h; rfl
      | cons B' Bs' =>
        obtain ⟨N, hN, hM⟩ := bind_some (show (do Mat.vcat B (← Mat.vcatL (B' :: Bs'))) = some M from h)
        obtain ⟨e, rfl⟩ := vcat_some hM
        exact if_pos (by omega)
    obtain ⟨i1, i2, i3⟩ := hcat
    refine ⟨?_, ?_, fun i hi => ?_⟩
    · simp only [List.flatten_cons, List.length_append, List.map_cons, List.sum_cons]; omega
    · simp only [List.flatten_cons, List.length_append, List.map_cons, List.sum_cons]; omega
    · rw [List.flatten_cons] at hi ⊢
      by_cases hi' : i < u.length
      · rw [List.getElem?_append_left hi', hhead i hi', hM i hi']
      · rw [List.getElem?_append_right (by omega), i3 _ (by rw [List.length_append] at hi; omega)]
        congr 2 <;> omega

end Tup

theorem sideL_eq {b : Bool} {k : KExpr} (xs : List Input) : (xs.map (side lm lk b k)).sum = sideL lm lk b k xs := by
  induction xs with
  | nil => rfl
  | cons x xs ih => rw [List.map_cons, List.sum_cons, ih]; rfl

/-- The numbers of rows and columns depend on the first and second input only. -/
theorem ev_size : ∀ (n : ℕ) (k : KExpr), k.Narrow → ∀ x y A, (ev lm lk n).K k x y = some A →
    A.r = side lm lk true k x ∧ A.c = side lm lk false k y
  | 0, k, _, x, y, A, h => by simp [ev, Ev.bot] at h
  | n + 1, k, hk, x, y, A, h => by
    by_cases hxy : x.IsAtom ∧ y.IsAtom
    · obtain ⟨hx, hy⟩ := hxy
      rw [side_atom hx, side_atom hy]
      replace h : stepKAtom lm lk (ev lm lk n) k x y = some A := by
        cases x <;> cases y <;> first | exact h | exact hx.elim | exact hy.elim
      have ih := ev_size n
      cases k with
      | prim k =>
        cases x <;> cases y <;> simp only [stepKAtom, reduceCtorEq, Option.some.injEq] at h
        subst h; exact ⟨rfl, rfl⟩
      | zero =>
        have h : some _ = some A := h
        cases h; exact ⟨rfl, rfl⟩
      | mok => exact hk.elim
      | adk k =>
        have := ih k hk _ _ _ (show (ev lm lk n).K k x y = some A from h)
        rwa [side_atom hx, side_atom hy] at this
      | add a b =>
        obtain ⟨B, hB, h⟩ := bind_some h
        obtain ⟨D, hD, h⟩ := bind_some h
        obtain ⟨_, _, rfl⟩ := Mat.add_some h
        have := ih a hk.1 _ _ _ hB
        rwa [side_atom hx, side_atom hy] at this
      | mul a b =>
        obtain ⟨B, hB, h⟩ := bind_some h
        obtain ⟨D, hD, h⟩ := bind_some h
        obtain ⟨_, _, rfl⟩ := Mat.mul_some h
        have := ih a hk.1 _ _ _ hB
        rwa [side_atom hx, side_atom hy] at this
      | scale c k =>
        obtain ⟨B, hB, rfl⟩ := Option.map_eq_some_iff.1 (show ((ev lm lk n).K k x y).map _ = some A from h)
        have := ih k hk _ _ _ hB
        rwa [side_atom hx, side_atom hy] at this
      | tprod f g =>
        obtain ⟨u, hu, h⟩ := bind_some h
        obtain ⟨v, hv, h⟩ := bind_some h
        cases h
        exact ⟨fnSize_eq hu, fnSize_eq hv⟩
      | rev k =>
        obtain ⟨B, hB, rfl⟩ := Option.map_eq_some_iff.1 (show ((ev lm lk n).K k y x).map _ = some A from h)
        have := ih k hk _ _ _ hB
        rw [side_atom hx, side_atom hy] at this
        exact ⟨this.2, this.1⟩
      | pre t u k =>
        obtain ⟨x', hx', h⟩ := bind_some h
        obtain ⟨y', hy', h⟩ := bind_some h
        have := ih k hk _ _ _ h
        rw [side_atom (InTr.apply_atom hx'), side_atom (InTr.apply_atom hy')] at this
        simp only [atomSize, hx', hy', Option.elim]
        exact this
      | diff d e k =>
        cases x <;> cases y <;> simp only [stepKAtom, reduceCtorEq] at h
        unfold diffMat at h
        split at h
        · cases h; exact ⟨rfl, rfl⟩
        · cases h
      | post kij kzi kzj z kzz noise =>
        obtain ⟨B, hB, h⟩ := bind_some h
        obtain ⟨K, _, h⟩ := bind_some h
        obtain ⟨_, _, h⟩ := bind_some h
        obtain ⟨_, _, h⟩ := bind_some h
        obtain ⟨_, _, h⟩ := bind_some h
        obtain ⟨_, _, rfl⟩ := Mat.sub_some h
        have := ih kij hk _ _ _ hB
        rwa [side_atom hx, side_atom hy] at this
      | pseudo kij kzi kzj kzz kzx kxx o =>
        obtain ⟨B, hB, h⟩ := bind_some h
        obtain ⟨_, _, h⟩ := bind_some h
        obtain ⟨_, _, h⟩ := bind_some h
        obtain ⟨_, _, h⟩ := bind_some h
        obtain ⟨_, _, h⟩ := bind_some h
        obtain ⟨_, hP, h⟩ := bind_some h
        obtain ⟨_, _, h⟩ := bind_some h
        obtain ⟨_, _, rfl⟩ := Mat.add_some h
        obtain ⟨_, _, rfl⟩ := Mat.sub_some hP
        have := ih kij hk _ _ _ hB
        rwa [side_atom hx, side_atom hy] at this
    · rw [ev_K_tup hxy] at h
      obtain ⟨h1, h2⟩ := tupK_size (ev_size n k hk) h
      rw [sideL_eq, sideL_asTup] at h1 h2
      exact ⟨h1, h2⟩

/-- `u` is the diagonal of `A`. -/
structure IsDiag (u : List ℝ) (A : Mat) : Prop where
  r : u.length = A.r
  c : u.length = A.c
  e : ∀ i < u.length, u[i]? = some (A.e i i)

theorem IsDiag.zip {u v w : List ℝ} {A B M : Mat} {f : ℝ → ℝ → ℝ} (hu : IsDiag u A) (hv : IsDiag v B)
    (h : zipCol f u v = some w) (hM : M = ⟨A.r, A.c, fun i j => f (A.e i j) (B.e i j)⟩) : IsDiag w M := by
  obtain ⟨hl, rfl⟩ := zipCol_some h
  subst hM
  have hlen : (List.zipWith f u v).length = u.length := by simp [hl]
  refine ⟨hlen.trans hu.r, hlen.trans hu.c, fun i hi => ?_⟩
  rw [hlen] at hi
  rw [List.getElem?_zipWith, hu.e i hi, hv.e i (hl ▸ hi)]

theorem IsDiag.quad {n : ℕ} {W : Matrix (Fin n) (Fin n) ℝ} {B C M : Mat} {v : List ℝ}
    (h : Mat.quad W B C = some M) (h' : Mat.quadDiag W B C = some v) : IsDiag v M := by
  unfold Mat.quadDiag at h'
  split at h'
  · next hc =>
    unfold Mat.quad at h
    rw [if_pos ⟨hc.1, hc.2.1⟩] at h
    cases h; cases h'
    refine ⟨by simp, by simp [hc.2.2], fun i hi => ?_⟩
    simp only [List.length_map, List.length_range] at hi
    simp [hi]
  · cases h'

/-- For kernels that are not multi-output, elementwise evaluation is the diagonal of pairwise evaluation, at all
inputs. -/
theorem ev_diag : ∀ (n : ℕ) (k : KExpr), k.Narrow → ∀ x y u A, (ev lm lk n).D k x y = some u →
    (ev lm lk n).K k x y = some A → IsDiag u A
  | 0, k, _, x, y, u, A, _, h => by simp [ev, Ev.bot] at h
  | n + 1, k, hk, x, y, u, A, hu, h => by
    by_cases hxy : x.IsAtom ∧ y.IsAtom
    · obtain ⟨hx, hy⟩ := hxy
      replace h : stepKAtom lm lk (ev lm lk n) k x y = some A := by
        cases x <;> cases y <;> first | exact h | exact hx.elim | exact hy.elim
      replace hu : stepDAtom lm lk (ev lm lk n) k x y = some u := by
        cases x <;> cases y <;> first | exact hu | exact hx.elim | exact hy.elim
      have ih := ev_diag n
      cases k with
      | prim k =>
        cases x <;> cases y <;> simp only [stepKAtom, reduceCtorEq, Option.some.injEq] at h
        next xs ys =>
        subst h
        simp only [stepDAtom] at hu
        split at hu
        · next hl =>
          cases hu
          have hlen : (List.zipWith k xs ys).length = xs.length := by simp [hl]
          refine ⟨hlen, hlen.trans hl, fun i hi => ?_⟩
          rw [hlen] at hi
          rw [List.getElem?_zipWith, List.getElem?_eq_getElem hi, List.getElem?_eq_getElem (hl ▸ hi)]
          show _ = some (k (xs.getD i []) (ys.getD i []))
          simp [List.getD_eq_getElem?_getD, hi, hl ▸ hi]
        · cases hu
      | zero =>
        have h : some _ = some A := h
        cases h
        simp only [stepDAtom] at hu
        split at hu
        · next hl =>
          cases hu
          exact ⟨by simp, by simp [hl], fun i hi => by rw [List.length_replicate] at hi; simp [hi]⟩
        · cases hu
      | mok => exact hk.elim
      | adk k => exact ih k hk _ _ _ _ hu h
      | add a b =>
        obtain ⟨B, hB, h⟩ := bind_some h
        obtain ⟨D, hD, h⟩ := bind_some h
        obtain ⟨_, _, rfl⟩ := Mat.add_some h
        obtain ⟨v, hv, hu⟩ := bind_some hu
        obtain ⟨w, hw, hu⟩ := bind_some hu
        exact (ih a hk.1 _ _ _ _ hv hB).zip (ih b hk.2 _ _ _ _ hw hD) hu rfl
      | mul a b =>
        obtain ⟨B, hB, h⟩ := bind_some h
        obtain ⟨D, hD, h⟩ := bind_some h
        obtain ⟨_, _, rfl⟩ := Mat.mul_some h
        obtain ⟨v, hv, hu⟩ := bind_some hu
        obtain ⟨w, hw, hu⟩ := bind_some hu
        exact (ih a hk.1 _ _ _ _ hv hB).zip (ih b hk.2 _ _ _ _ hw hD) hu rfl
      | scale c k =>
        obtain ⟨B, hB, rfl⟩ := Option.map_eq_some_iff.1 (show ((ev lm lk n).K k x y).map _ = some A from h)
        obtain ⟨v, hv, rfl⟩ := Option.map_eq_some_iff.1 (show ((ev lm lk n).D k x y).map _ = some u from hu)
        have := ih k hk _ _ _ _ hv hB
        refine ⟨by rw [List.length_map]; exact this.r, by rw [List.length_map]; exact this.c, fun i hi => ?_⟩
        rw [List.length_map] at hi
        rw [List.getElem?_map, this.e i hi]; rfl
      | tprod f g =>
        obtain ⟨v, hv, h⟩ := bind_some h
        obtain ⟨w, hw, h⟩ := bind_some h
        obtain ⟨v', hv', hu⟩ := bind_some hu
        obtain ⟨w', hw', hu⟩ := bind_some hu
        rw [hv] at hv'; cases hv'
        rw [hw] at hw'; cases hw'
        cases h
        obtain ⟨hl, rfl⟩ := zipCol_some hu
        have hlen : (List.zipWith (· * ·) v w).length = v.length := by simp [hl]
        refine ⟨hlen, hlen.trans hl, fun i hi => ?_⟩
        rw [hlen] at hi
        rw [List.getElem?_zipWith, List.getElem?_eq_getElem hi, List.getElem?_eq_getElem (hl ▸ hi)]
        show _ = some (v.getD i 0 * w.getD i 0)
        simp [List.getD_eq_getElem?_getD, hi, hl ▸ hi]
      | rev k =>
        obtain ⟨B, hB, rfl⟩ := Option.map_eq_some_iff.1 (show ((ev lm lk n).K k y x).map _ = some A from h)
        have := ih k hk _ _ _ _ (show (ev lm lk n).D k y x = some u from hu) hB
        exact ⟨this.c, this.r, this.e⟩
      | pre t u' k =>
        obtain ⟨x', hx', h⟩ := bind_some h
        obtain ⟨y', hy', h⟩ := bind_some h
        obtain ⟨x'', hx'', hu⟩ := bind_some hu
        obtain ⟨y'', hy'', hu⟩ := bind_some hu
        rw [hx'] at hx''; cases hx''
        rw [hy'] at hy''; cases hy''
        exact ih k hk _ _ _ _ hu h
      | diff d e k =>
        cases x <;> cases y <;> simp only [stepKAtom, reduceCtorEq] at h
        next xs ys =>
        unfold diffMat at h
        split at h
        · next hall =>
          cases h
          simp only [stepDAtom] at hu
          split at hu
          · next hl =>
            have hlen : u.length = xs.length := by
              rw [mapM_length hu]; simp [hl]
            refine ⟨hlen, hlen.trans hl, fun i hi => ?_⟩
            have hx : i < xs.length := hlen ▸ hi
            have hy : i < ys.length := hl ▸ hx
            have hz : (xs.zip ys)[i]? = some (xs[i], ys[i]) := by simp [hx, hy]
            obtain ⟨v, hv, hd⟩ := mapM_get hu hz
            rw [hv]
            show some v = some (if i < xs.length ∧ i < ys.length then
              (diffEntry (ev lm lk n) k d e (xs.getD i []) (ys.getD i [])).getD 0 else 0)
            have e1 : xs.getD i [] = xs[i] := by simp [List.getD_eq_getElem?_getD, hx]
            have e2 : ys.getD i [] = ys[i] := by simp [List.getD_eq_getElem?_getD, hy]
            rw [if_pos ⟨hx, hy⟩, e1, e2, hd]; rfl
          · cases hu
        · cases h
      | post kij kzi kzj z kzz noise =>
        obtain ⟨B, hB, h⟩ := bind_some h
        obtain ⟨K, hK, h⟩ := bind_some h
        obtain ⟨Z, hZ, h⟩ := bind_some h
        obtain ⟨Y, hY, h⟩ := bind_some h
        obtain ⟨Q, hQ, h⟩ := bind_some h
        obtain ⟨_, _, rfl⟩ := Mat.sub_some h
        obtain ⟨v, hv, hu⟩ := bind_some hu
        obtain ⟨K', hK', hu⟩ := bind_some hu
        rw [hK] at hK'; cases hK'
        obtain ⟨Z', hZ', hu⟩ := bind_some hu
        rw [hZ] at hZ'; cases hZ'
        obtain ⟨Y', hY', hu⟩ := bind_some hu
        rw [hY] at hY'; cases hY'
        obtain ⟨q, hq, hu⟩ := bind_some hu
        exact (ih kij hk _ _ _ _ hv hB).zip (.quad hQ hq) hu rfl
      | pseudo kij kzi kzj kzz kzx kxx o =>
        obtain ⟨B, hB, h⟩ := bind_some h
        obtain ⟨K, hK, h⟩ := bind_some h
        obtain ⟨Z, hZ, h⟩ := bind_some h
        obtain ⟨Y, hY, h⟩ := bind_some h
        obtain ⟨Q, hQ, h⟩ := bind_some h
        obtain ⟨P, hP, h⟩ := bind_some h
        obtain ⟨Q', hQ', h⟩ := bind_some h
        obtain ⟨_, _, rfl⟩ := Mat.add_some h
        obtain ⟨v, hv, hu⟩ := bind_some hu
        obtain ⟨K', hK', hu⟩ := bind_some hu
        rw [hK] at hK'; cases hK'
        obtain ⟨Z', hZ', hu⟩ := bind_some hu
        rw [hZ] at hZ'; cases hZ'
        obtain ⟨Y', hY', hu⟩ := bind_some hu
        rw [hY] at hY'; cases hY'
        obtain ⟨q, hq, hu⟩ := bind_some hu
        obtain ⟨w, hw, hu⟩ := bind_some hu
        obtain ⟨q', hq', hu⟩ := bind_some hu
        obtain ⟨_, _, rfl⟩ := Mat.sub_some hP
        exact ((ih kij hk _ _ _ _ hv hB).zip (.quad hQ hq) hw rfl).zip (.quad hQ' hq') hu rfl
    · rw [ev_K_tup hxy] at h
      rw [ev_D_tup hxy] at hu
      unfold tupD at hu
      split at hu
      · next hl =>
        obtain ⟨us, hus, hu⟩ := bind_some hu
        cases hu
        obtain ⟨h1, h2⟩ := tupK_size (ev_size n k hk) h
        obtain ⟨d1, d2, d3⟩ := tup_diag (ps := []) (ev_size n k hk) (fun x y u A hu hA =>
          let d := ev_diag n k hk x y u A hu hA
          ⟨d.r, d.c, d.e⟩) hl.1 hus h
        exact ⟨d1.trans h1.symm, d2.trans h2.symm, fun i hi => by simpa using d3 i hi⟩
      · cases hu

end

end Stheno
