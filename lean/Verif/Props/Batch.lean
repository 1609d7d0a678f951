import Verif.Batch

/-!
# Batches of normal random variables

**C69.** The methods of normals with batch dimensions compute, for every index of the batch, what they compute for the normal at this index; `w2` and `m2`
do not.
-/

namespace Stheno

open Matrix
open scoped MatrixOrder

namespace Ten
variable {α β γ : Type}

/-- Indices into the shape `s` do not change if they are first made indices into the shape `u`. -/
def Below (s u : List ℕ) : Prop := ∀ i, clip s (clip u i) = clip s i

theorem Below.refl : ∀ s, Below s s
  | [], _ => rfl
  | s :: ss, [] => by simp [clip, Below.refl ss []]
  | s :: ss, i :: is => by
    simp only [clip, Below.refl ss is]
    split <;> rfl

theorem clip_nil_right : ∀ s, clip s [] = s.map fun _ => 0
  | [] => rfl
  | _ :: ss => by simp [clip, clip_nil_right ss]

theorem Below.nil (u : List ℕ) : Below [] u := fun _ => rfl

theorem Below.cons {a b : ℕ} {s u : List ℕ} (h : Below s u) (e : a = b ∨ a = 1) : Below (a :: s) (b :: u)
  | [] => by simp [clip, h []]
  | i :: is => by
    simp only [clip, h is]
    rcases e with rfl | rfl
    · split <;> rfl
    · simp

theorem bcast_below : ∀ {s t u : List ℕ}, bcast s t = some u → Below s u ∧ Below t u
  | [], t, u, h => by
    cases h
    exact ⟨.nil _, .refl _⟩
  | a :: s, [], u, h => by
    cases h
    exact ⟨.refl _, .nil _⟩
  | a :: s, b :: t, u, h => by
    unfold bcast at h
    split at h
    · next e =>
      obtain ⟨v, hv, rfl⟩ := Option.map_eq_some_iff.1 h
      obtain ⟨h1, h2⟩ := bcast_below hv
      exact ⟨h1.cons (.inl rfl), h2.cons (.inl e.symm)⟩
    · split at h
      · next e =>
        obtain ⟨v, hv, rfl⟩ := Option.map_eq_some_iff.1 h
        obtain ⟨h1, h2⟩ := bcast_below hv
        exact ⟨h1.cons (.inr e), h2.cons (.inl rfl)⟩
      · split at h
        · next e =>
          obtain ⟨v, hv, rfl⟩ := Option.map_eq_some_iff.1 h
          obtain ⟨h1, h2⟩ := bcast_below hv
          exact ⟨h1.cons (.inl rfl), h2.cons (.inr e)⟩
        · cases h

theorem bcast_self : ∀ s, bcast s s = some s
  | [] => rfl
  | a :: s => by simp [bcast, bcast_self s]

theorem bcast_nil (s : List ℕ) : bcast s [] = some s := by cases s <;> rfl

theorem bcast_one (s : List ℕ) (k : ℕ) : bcast (1 :: s) (k :: s) = some (k :: s) := by
  by_cases h : 1 = k
  · simp [bcast, h, bcast_self]
  · simp [bcast, h, bcast_self]

theorem bcast_cons (n : ℕ) (s t : List ℕ) : bcast (n :: s) (n :: t) = (bcast s t).map (n :: ·) := by simp [bcast]

theorem bcast_of_one (s t : List ℕ) (k : ℕ) : bcast (1 :: s) (k :: t) = (bcast s t).map (k :: ·) := by
  by_cases h : 1 = k
  · simp [bcast, h]
  · simp [bcast, h]

theorem bcast_to_one (s t : List ℕ) (k : ℕ) : bcast (k :: s) (1 :: t) = (bcast s t).map (k :: ·) := by
  by_cases h : k = 1
  · simp [bcast, h]
  · simp [bcast, h]

/-- Broadcasting again. -/
theorem bcast_again : ∀ {s t u : List ℕ}, bcast s t = some u → bcast s u = some u
  | [], t, u, h => rfl
  | a :: s, [], u, h => by
    cases h
    exact bcast_self _
  | a :: s, b :: t, u, h => by
    unfold bcast at h
    split at h
    · obtain ⟨v, hv, rfl⟩ := Option.map_eq_some_iff.1 h
      rw [bcast_cons, bcast_again hv]
      rfl
    · split at h
      · next e =>
        obtain ⟨v, hv, rfl⟩ := Option.map_eq_some_iff.1 h
        rw [e, bcast_of_one, bcast_again hv]
        rfl
      · split at h
        · obtain ⟨v, hv, rfl⟩ := Option.map_eq_some_iff.1 h
          rw [bcast_cons, bcast_again hv]
          rfl
        · cases h

/-- Within the shape, nothing is broadcast. -/
theorem clip_within : ∀ {s i : List ℕ}, List.Forall₂ (· < ·) i s → clip s i = i
  | [], _, .nil => rfl
  | s :: ss, i :: is, .cons h hs => by
    simp only [clip, clip_within hs]
    split
    · next e => rw [show i = 0 by omega]
    · rfl

/-- Within the shape, `get` gives the entries. -/
theorem get_within {t : Ten α} {i : List ℕ} (h : List.Forall₂ (· < ·) i t.shape) : t.get i = t.e i := by rw [get, clip_within h]

theorem get_clip {t : Ten α} {u : List ℕ} (h : Below t.shape u) (i : List ℕ) : t.get (clip u i) = t.get i := by rw [get, h, get]

theorem get_map (f : α → β) (t : Ten α) (i : List ℕ) : (t.map f).get i = f (t.get i) := rfl

theorem get_num (x : α) (i : List ℕ) : (num x).get i = x := rfl

theorem zip_get {f : α → β → γ} {a : Ten α} {b : Ten β} {r : Ten γ} (h : zip f a b = some r) (i : List ℕ) : r.get i = f (a.get i) (b.get i) := by
  obtain ⟨u, hu, rfl⟩ := Option.map_eq_some_iff.1 h
  obtain ⟨h1, h2⟩ := bcast_below hu
  show f (a.get (clip u i)) (b.get (clip u i)) = _
  rw [get_clip h1, get_clip h2]

theorem zip_shape {f : α → β → γ} {a : Ten α} {b : Ten β} {r : Ten γ} (h : zip f a b = some r) : bcast a.shape b.shape = some r.shape := by
  obtain ⟨u, hu, rfl⟩ := Option.map_eq_some_iff.1 h
  exact hu

theorem zip_some {f : α → β → γ} {a : Ten α} {b : Ten β} {s : List ℕ} (h : bcast a.shape b.shape = some s) : ∃ r, zip f a b = some r ∧ r.shape = s :=
  ⟨_, by rw [zip, h]; rfl, rfl⟩

theorem newAxis_get (t : Ten α) (i : List ℕ) : t.newAxis.get i = t.get i.tail := by cases i <;> rfl

theorem first_get {t r : Ten α} (h : t.first = some r) (i : List ℕ) : r.get i = t.get (0 :: i) := by
  unfold first at h
  split at h
  · cases h
  · cases h
  · next c s hs h0 =>
    cases h
    show t.e (0 :: clip _ i) = t.e _
    rw [h0]
    simp [clip]

theorem first_some {t : Ten α} {c : ℕ} {s : List ℕ} (h : t.shape = (c + 1) :: s) : ∃ r, t.first = some r ∧ r.shape = s := by
  exact ⟨⟨s, fun i => t.e (0 :: i)⟩, by rw [first, h]; rfl, rfl⟩

theorem squeezeLast_get {t r : Ten α} (h : t.squeezeLast = some r) (j : ℕ) (i : List ℕ) : r.get i = t.get (j :: i) := by
  unfold squeezeLast at h
  split at h
  · next s hs =>
    cases h
    show t.e (0 :: clip _ i) = t.e _
    rw [hs]
    simp [clip]
  · cases h

theorem squeezeLast_some {t : Ten α} {s : List ℕ} (h : t.shape = 1 :: s) : ∃ r, t.squeezeLast = some r ∧ r.shape = s :=
  ⟨⟨s, fun i => t.e (0 :: i)⟩, by rw [squeezeLast, h]; rfl, rfl⟩

/-- Matrices at clipped indices. -/
theorem mat_clip {t : Ten α} {c r : ℕ} {s u : List ℕ} (hs : t.shape = c :: r :: s) (h : Below s u) (n m : ℕ) (d : List ℕ) : t.mat n m (clip u d) = t.mat n m d := by
  funext i j
  unfold mat get
  rw [hs]
  simp only [clip, h d]

theorem col_clip {t : Ten α} {c r : ℕ} {s u : List ℕ} (hs : t.shape = c :: r :: s) (h : Below s u) (n j : ℕ) (d : List ℕ) : t.col n (clip u d) j = t.col n d j := by
  funext i
  unfold col get
  rw [hs]
  simp only [clip, h d]

theorem ofMat_some (f : ∀ n, Matrix (Fin n) (Fin n) α → β) {t : Ten α} {n : ℕ} {s : List ℕ} (hs : t.shape = n :: n :: s) :
    ∃ r, t.ofMat f = some r ∧ r.shape = s ∧ ∀ d, r.get d = f n (t.mat n n d) := by
  refine ⟨⟨s, fun d => f n (t.mat n n d)⟩, by simp [ofMat, hs], rfl, fun d => ?_⟩
  show f n (t.mat n n (clip s d)) = _
  rw [mat_clip hs (.refl s)]

theorem entry_fin {n m : ℕ} (A : Matrix (Fin n) (Fin m) ℝ) (i : Fin n) (j : Fin m) : entry A i j = A i j := by
  rw [entry, dif_pos ⟨i.2, j.2⟩]

theorem clip_fin {n m : ℕ} (i : Fin n) (j : Fin m) (u d : List ℕ) : clip (m :: n :: u) ((j : ℕ) :: (i : ℕ) :: d) = (j : ℕ) :: (i : ℕ) :: clip u d := by
  have h : ∀ {n : ℕ} (i : Fin n), (if n = 1 then 0 else (i : ℕ)) = i := fun {n} i => by
    split
    · next e => have := i.2; omega
    · rfl
  simp only [clip, h]

theorem mul_some {a b : Ten ℝ} {k r c : ℕ} {s t u : List ℕ} (ha : a.shape = k :: r :: s) (hb : b.shape = c :: k :: t) (hu : bcast s t = some u) :
    ∃ p, mul a b = some p ∧ p.shape = c :: r :: u ∧ ∀ d, p.mat r c d = a.mat r k d * b.mat k c d := by
  refine ⟨_, by simp only [mul, ha, hb, hu, if_pos]; rfl, rfl, fun d => ?_⟩
  funext i j
  obtain ⟨h1, h2⟩ := bcast_below hu
  unfold mat get
  simp only [clip_fin, List.tail_cons, List.headD_cons, entry_fin]
  have e1 := mat_clip ha h1 r k d
  have e2 := mat_clip hb h2 k c d
  exact congrFun (congrFun (congrArg₂ (fun A B : Matrix _ _ ℝ => A * B) e1 e2) i) j

theorem mul_none {a b p : Ten ℝ} {k r c k' : ℕ} {s t : List ℕ} (ha : a.shape = k :: r :: s) (hb : b.shape = c :: k' :: t) (h : mul a b = some p) : k = k' ∧ ∃ u, bcast s t = some u := by
  simp only [mul, ha, hb] at h
  split at h
  · next e =>
    obtain ⟨u, hu, -⟩ := Option.map_eq_some_iff.1 h
    exact ⟨e, u, hu⟩
  · cases h

theorem onMat_some (f : ∀ n, Matrix (Fin n) (Fin n) ℝ → Matrix (Fin n) (Fin n) ℝ) {t : Ten ℝ} {n : ℕ} {s : List ℕ} (hs : t.shape = n :: n :: s) :
    ∃ r, t.onMat f = some r ∧ r.shape = n :: n :: s ∧ ∀ d, r.mat n n d = f n (t.mat n n d) := by
  refine ⟨_, by simp only [onMat, hs, if_pos]; rfl, rfl, fun d => ?_⟩
  funext i j
  unfold mat get
  simp only [clip_fin, List.tail_cons, List.headD_cons, entry_fin]
  exact congrFun (congrFun (congrArg (f n) (mat_clip hs (.refl s) n n d)) i) j

theorem ratio_some {a b : Ten ℝ} {n : ℕ} {s t u : List ℕ} (ha : a.shape = n :: n :: s) (hb : b.shape = n :: n :: t) (hu : bcast s t = some u) :
    ∃ r, ratio a b = some r ∧ r.shape = u ∧ ∀ d, r.get d = ((b.mat n n d)⁻¹ * a.mat n n d).trace := by
  refine ⟨⟨u, fun d => ((b.mat n n d)⁻¹ * a.mat n n d).trace⟩, by simp [ratio, ha, hb, hu], rfl, fun d => ?_⟩
  obtain ⟨h1, h2⟩ := bcast_below hu
  show ((b.mat n n (clip u d))⁻¹ * a.mat n n (clip u d)).trace = _
  rw [mat_clip ha h1, mat_clip hb h2]

/-- The quadratic form of a column; NaN if there are NaNs. -/
noncomputable def quad {n : ℕ} (A : Matrix (Fin n) (Fin n) ℝ) (x : Fin n → Option ℝ) : Option ℝ :=
  if ∀ l, (x l).isSome then some ((fun l => (x l).getD 0) ⬝ᵥ (A⁻¹ *ᵥ fun l => (x l).getD 0)) else none

theorem iqfDiag_some {a : Ten ℝ} {b : Ten (Option ℝ)} {n k : ℕ} {s t u : List ℕ} (ha : a.shape = n :: n :: s) (hb : b.shape = k :: n :: t) (hu : bcast s t = some u) :
    ∃ r, iqfDiag a b = some r ∧ r.shape = k :: u ∧ ∀ d, ∀ j < k, r.get (j :: d) = quad (a.mat n n d) (b.col n d j) := by
  refine ⟨_, by simp only [iqfDiag, ha, hb, hu, and_self, if_true]; rfl, rfl, fun d j hj => ?_⟩
  obtain ⟨h1, h2⟩ := bcast_below hu
  have e : clip (k :: u) (j :: d) = j :: clip u d := by
    simp only [clip]
    split
    · next e => rw [show j = 0 by omega]
    · rfl
  show quad (a.mat n n (clip (k :: u) (j :: d)).tail) (b.col n (clip (k :: u) (j :: d)).tail ((clip (k :: u) (j :: d)).headD 0)) = _
  rw [e, List.tail_cons, List.headD_cons, mat_clip ha h1, col_clip hb h2]

theorem iqfDiag_none {a : Ten ℝ} {b r : Ten (Option ℝ)} {n k m : ℕ} {s t : List ℕ} (ha : a.shape = n :: n :: s) (hb : b.shape = k :: m :: t) (h : iqfDiag a b = some r) :
    m = n ∧ ∃ u, bcast s t = some u := by
  simp only [iqfDiag, ha, hb] at h
  split at h
  · next e =>
    obtain ⟨u, hu, -⟩ := Option.map_eq_some_iff.1 h
    exact ⟨e.2, u, hu⟩
  · cases h

theorem diag_some {t : Ten α} {n : ℕ} {s : List ℕ} (hs : t.shape = n :: n :: s) : ∃ r, t.diag = some r ∧ r.shape = n :: s ∧ ∀ (i : ℕ) d, r.get (i :: d) = t.get (i :: i :: d) := by
  refine ⟨_, by simp only [diag, hs, if_pos]; rfl, rfl, fun i d => ?_⟩
  unfold get
  simp only [hs, clip, List.headD_cons, List.tail_cons]

theorem diagMat_some {t : Ten ℝ} {n : ℕ} {s : List ℕ} (hs : t.shape = n :: s) :
    ∃ r, t.diagMat = some r ∧ r.shape = n :: n :: s ∧ ∀ d, r.mat n n d = diagonal fun i : Fin n => t.get (i :: d) := by
  refine ⟨_, by rw [diagMat, hs], rfl, fun d => ?_⟩
  funext i j
  unfold mat get
  simp only [clip_fin, List.headD_cons, List.tail_cons, diagonal_apply, Fin.val_inj, hs]
  have : clip (n :: s) ((i : ℕ) :: d) = (i : ℕ) :: clip s d := by
    have := i.2
    simp only [clip]
    split
    · next e => rw [show (i : ℕ) = 0 by omega]
    · rfl
  rw [this]
  simp only [eq_comm]

theorem tr_some {t : Ten α} {r c : ℕ} {s : List ℕ} (hs : t.shape = c :: r :: s) : ∃ p, t.tr = some p ∧ p.shape = r :: c :: s ∧ ∀ d, p.mat c r d = (t.mat r c d)ᵀ := by
  refine ⟨_, by rw [tr, hs], rfl, fun d => ?_⟩
  funext i j
  unfold mat get
  simp only [clip_fin, List.headD_cons, List.tail_cons, hs]
  rfl

theorem fillDiag_mat (x : ℝ) (n : ℕ) (d : List ℕ) : (fillDiag x n).mat n n d = diagonal fun _ => x := by
  funext i j
  unfold mat get fillDiag
  simp only [clip_fin, List.headD_cons, List.tail_cons, diagonal_apply, Fin.val_inj, eq_comm]

end Ten

namespace BNormal
open Ten
variable {g h : BNormal} {n k : ℕ} {bm bv bm' bv' bs bx : List ℕ}

/-- The normal at an index of the batch, broadcast. -/
def at' (g : BNormal) (n : ℕ) (d : List ℕ) : Normal n := ⟨g.mean.col n d 0, g.var.mat n n d⟩

/-- Means are columns of `n` entries with the batch dimensions `bm`, and variances are `n` by `n` matrices with the batch dimensions `bv`. -/
structure Sized (g : BNormal) (n : ℕ) (bm bv : List ℕ) : Prop where
  mean : g.mean.shape = 1 :: n :: bm
  var : g.var.shape = n :: n :: bv

theorem Sized.dim (hg : g.Sized n bm bv) : g.dim = some n := by rw [BNormal.dim, hg.var]

/-- **C69.** Entropies of batches. -/
theorem C69_entropy (hg : g.Sized n bm bv) : ∃ r, g.entropy = some r ∧ r.shape = bv ∧ ∀ d, r.get d = (g.at' n d).entropy := by
  obtain ⟨l, h1, h2, h3⟩ := ofMat_some (fun _ A => Real.log A.det) hg.var
  obtain ⟨s, h4, h5⟩ := zip_some (f := (· + ·)) (a := l) (b := num (n * (Real.log (2 * Real.pi) + 1) : ℝ)) (bcast_nil _)
  refine ⟨s.map (· / 2), by simp [entropy, h1, hg.dim, h4], h5.trans h2, fun d => ?_⟩
  rw [get_map, zip_get h4, h3]
  rfl

/-- **C69.** KL divergences of batches, with broadcasting of their dimensions. -/
theorem C69_kl (hg : g.Sized n bm bv) (hh : h.Sized n bm' bv') {r : Ten (Option ℝ)} (hr : g.kl h = some r) (d : List ℕ) :
    r.get d = some ((g.at' n d).kl (h.at' n d)) := by
  obtain ⟨l, l1, l2, l3⟩ := ofMat_some (fun _ A => Real.log A.det) hg.var
  obtain ⟨l', l1', l2', l3'⟩ := ofMat_some (fun _ A => Real.log A.det) hh.var
  obtain ⟨diff, e1, hr⟩ := Option.bind_eq_some_iff.1 hr
  obtain ⟨q, e2, hr⟩ := Option.bind_eq_some_iff.1 hr
  obtain ⟨q', e3, hr⟩ := Option.bind_eq_some_iff.1 hr
  obtain ⟨t, e4, hr⟩ := Option.bind_eq_some_iff.1 hr
  obtain ⟨s1, e5, hr⟩ := Option.bind_eq_some_iff.1 hr
  obtain ⟨_, e, hr⟩ := Option.bind_eq_some_iff.1 hr
  cases e.symm.trans l1'
  obtain ⟨s2, e6, hr⟩ := Option.bind_eq_some_iff.1 hr
  obtain ⟨_, e, hr⟩ := Option.bind_eq_some_iff.1 hr
  cases e.symm.trans l1
  obtain ⟨s3, e7, hr⟩ := Option.bind_eq_some_iff.1 hr
  obtain ⟨_, e, hr⟩ := Option.bind_eq_some_iff.1 hr
  cases e.symm.trans hg.dim
  obtain ⟨s4, e8, hr⟩ := Option.bind_eq_some_iff.1 hr
  cases hr
  have sd := zip_shape e1
  rw [hh.mean, hg.mean, bcast_cons, bcast_cons] at sd
  obtain ⟨_, sd', sd⟩ := Option.map_eq_some_iff.1 sd
  obtain ⟨u, hu, rfl⟩ := Option.map_eq_some_iff.1 sd'
  obtain ⟨-, v, hv⟩ := iqfDiag_none (b := diff.map some) hh.var sd.symm e2
  obtain ⟨_, e2', -, q3⟩ := iqfDiag_some (b := diff.map some) hh.var sd.symm hv
  cases e2.symm.trans e2'
  obtain ⟨w, hw⟩ : ∃ w, bcast bv bv' = some w := by
    simp only [ratio, hg.var, hh.var, and_self, if_true] at e4
    obtain ⟨w, hw, -⟩ := Option.map_eq_some_iff.1 e4
    exact ⟨w, hw⟩
  obtain ⟨_, e4', -, t3⟩ := ratio_some hg.var hh.var hw
  cases e4.symm.trans e4'
  rw [get_map, zip_get e8, zip_get e7, zip_get e6, zip_get e5, first_get e3, q3 d 0 one_pos, t3, l3, l3', get_num]
  have c : ∀ l : Fin n, (diff.map some).col n d 0 l = some (h.mean.col n d 0 l - g.mean.col n d 0 l) := fun l => by
    show some (diff.get _) = _
    rw [zip_get e1]
    rfl
  unfold quad
  rw [if_pos fun l => by rw [c]; rfl]
  simp only [c, Option.getD_some, Option.map_some]
  rfl

/-- **C69.** KL divergences of batches with equal dimensions are returned. -/
theorem C69_kl_returns (hg : g.Sized n bs bs) (hh : h.Sized n bs bs) : ∃ r, g.kl h = some r ∧ r.shape = bs := by
  obtain ⟨l, l1, l2, -⟩ := ofMat_some (fun _ A => Real.log A.det) hg.var
  obtain ⟨l', l1', l2', -⟩ := ofMat_some (fun _ A => Real.log A.det) hh.var
  obtain ⟨diff, e1, s1⟩ := zip_some (f := (· - ·)) (a := h.mean) (b := g.mean) (by rw [hh.mean, hg.mean, bcast_self])
  obtain ⟨q, e2, s2, -⟩ := iqfDiag_some (b := diff.map some) hh.var s1 (bcast_self _)
  obtain ⟨q', e3, s3⟩ := first_some s2
  obtain ⟨t, e4, s4, -⟩ := ratio_some hg.var hh.var (bcast_self _)
  obtain ⟨u1, e5, s5⟩ := zip_some (f := fun (a : Option ℝ) b => a.map (· + b)) (a := q') (b := t) (by rw [s3, s4, bcast_self])
  obtain ⟨u2, e6, s6⟩ := zip_some (f := fun (a : Option ℝ) b => a.map (· + b)) (a := u1) (b := l') (by rw [s5, l2', bcast_self])
  obtain ⟨u3, e7, s7⟩ := zip_some (f := fun (a : Option ℝ) b => a.map (· - b)) (a := u2) (b := l) (by rw [s6, l2, bcast_self])
  obtain ⟨u4, e8, s8⟩ := zip_some (f := fun (a : Option ℝ) b => a.map (· - b)) (a := u3) (b := num (n : ℝ)) (bcast_nil _)
  exact ⟨u4.map (Option.map (· / 2)), by simp [kl, e1, e2, e3, e4, e5, e6, e7, e8, l1, l1', hg.dim], s8.trans s7⟩

/-- The log-density of a column; NaN if there are NaNs. -/
noncomputable def density (g : Normal n) (x : Fin n → Option ℝ) : Option ℝ := if ∀ i, (x i).isSome then some (g.logpdfFull fun i => (x i).getD 0) else none

theorem logpdfFull_eq (hg : g.Sized n bm bv) {x r : Ten (Option ℝ)} (hx : x.shape = k :: n :: bx) (hr : g.logpdfFull x = some r) :
    ∃ u v, bcast bx bm = some u ∧ bcast bv u = some v ∧ r.shape = (if k = 1 then v else k :: v) ∧
      ∀ d, ∀ j < k, r.get (if k = 1 then d else j :: d) = density (g.at' n d) (x.col n d j) := by
  obtain ⟨l, l1, l2, l3⟩ := ofMat_some (fun _ A => Real.log A.det) hg.var
  obtain ⟨_, e, hr⟩ := Option.bind_eq_some_iff.1 hr
  cases e.symm.trans l1
  obtain ⟨_, e, hr⟩ := Option.bind_eq_some_iff.1 hr
  cases e.symm.trans hg.dim
  obtain ⟨diff, e1, hr⟩ := Option.bind_eq_some_iff.1 hr
  obtain ⟨s1, e2, hr⟩ := Option.bind_eq_some_iff.1 hr
  obtain ⟨q, e3, hr⟩ := Option.bind_eq_some_iff.1 hr
  obtain ⟨s2, e4, hr⟩ := Option.bind_eq_some_iff.1 hr
  have d1 := zip_shape e1
  rw [hx, hg.mean, bcast_to_one, bcast_cons] at d1
  obtain ⟨_, d1', d1⟩ := Option.map_eq_some_iff.1 d1
  obtain ⟨u, hu, rfl⟩ := Option.map_eq_some_iff.1 d1'
  obtain ⟨-, v, hv⟩ := iqfDiag_none hg.var d1.symm e3
  obtain ⟨_, e3', q2, q3⟩ := iqfDiag_some hg.var d1.symm hv
  cases e3.symm.trans e3'
  have d2 := zip_shape e2
  rw [show l.newAxis.shape = 1 :: bv from congrArg (1 :: ·) l2, show (num (n * Real.log (2 * Real.pi) : ℝ)).shape = [] from rfl, bcast_nil] at d2
  have d4 := zip_shape e4
  rw [← Option.some.inj d2, q2, bcast_of_one, bcast_again hv] at d4
  have d4 : s2.shape = k :: v := (Option.some.inj d4).symm
  have key : ∀ d, ∀ j < k, (s2.map (Option.map fun a => -a / 2)).get (j :: d) = density (g.at' n d) (x.col n d j) := fun d j hj => by
    rw [get_map, zip_get e4, zip_get e2, newAxis_get, List.tail_cons, l3, q3 d j hj, get_num]
    have c : ∀ i : Fin n, diff.col n d j i = (x.col n d j i).map (· - g.mean.col n d 0 i) := fun i => by
      show diff.get _ = _
      rw [zip_get e1]
      have : g.mean.get (j :: i :: d) = g.mean.get (0 :: i :: d) := by
        unfold Ten.get
        rw [hg.mean]
        simp [clip]
      rw [this]
      rfl
    unfold quad density
    by_cases h : ∀ i, (x.col n d j i).isSome
    · rw [if_pos h, if_pos fun i => by rw [c, Option.isSome_map]; exact h i]
      have c' : (fun i => (diff.col n d j i).getD 0) = (fun i => (x.col n d j i).getD 0) - g.mean.col n d 0 := by
        funext i
        obtain ⟨y, hy⟩ := Option.isSome_iff_exists.1 (h i)
        simp [c, hy]
      rw [c']
      simp [Normal.logpdfFull, at']
    · rw [if_neg h, if_neg fun h' => h fun i => by have := h' i; rwa [c, Option.isSome_map] at this]
      rfl
  refine ⟨u, v, hu, hv, ?_⟩
  by_cases hk : k = 1
  · subst hk
    have hr : (s2.map (Option.map fun a => -a / 2)).first = some r := by
      have e : (if s2.shape.head? = some 1 then (s2.map (Option.map fun a => -a / 2)).first else some (s2.map (Option.map fun a => -a / 2))) = some r := hr
      rwa [if_pos (by rw [d4]; rfl)] at e
    obtain ⟨_, h1, h2⟩ := first_some (t := s2.map (Option.map fun a => -a / 2)) (c := 0) d4
    cases hr.symm.trans h1
    refine ⟨by rw [if_pos rfl]; exact h2, fun d j hj => ?_⟩
    rw [if_pos rfl, first_get hr, ← key d j hj, show j = 0 by omega]
  · have hr : some (s2.map (Option.map fun a => -a / 2)) = some r := by
      have e : (if s2.shape.head? = some 1 then (s2.map (Option.map fun a => -a / 2)).first else some (s2.map (Option.map fun a => -a / 2))) = some r := hr
      rwa [if_neg (by rw [d4]; simpa using hk)] at e
    cases hr
    refine ⟨by rw [if_neg hk]; exact d4, fun d j hj => ?_⟩
    rw [if_neg hk, key d j hj]

theorem logpdfFull_returns (hg : g.Sized n bm bv) {x : Ten (Option ℝ)} (hx : x.shape = k :: n :: bx) {u v : List ℕ} (hu : bcast bx bm = some u) (hv : bcast bv u = some v) :
    ∃ r, g.logpdfFull x = some r := by
  obtain ⟨l, l1, l2, -⟩ := ofMat_some (fun _ A => Real.log A.det) hg.var
  obtain ⟨diff, e1, s1⟩ := zip_some (f := fun (x : Option ℝ) m => x.map (· - m)) (a := x) (b := g.mean) (s := k :: n :: u) (by rw [hx, hg.mean, bcast_to_one, bcast_cons, hu]; rfl)
  obtain ⟨q, e2, s2, -⟩ := iqfDiag_some hg.var s1 hv
  obtain ⟨t, e3, s3⟩ := zip_some (f := (· + ·)) (a := l.newAxis) (b := num (n * Real.log (2 * Real.pi) : ℝ)) (s := 1 :: bv) (by
    rw [show l.newAxis.shape = 1 :: bv from congrArg (1 :: ·) l2]
    rfl)
  obtain ⟨w, e4, s4⟩ := zip_some (f := fun (a : ℝ) b => Option.map (a + ·) b) (a := t) (b := q) (s := k :: v) (by rw [s3, s2, bcast_of_one, bcast_again hv]; rfl)
  by_cases hk : k = 1
  · subst hk
    obtain ⟨r, h1, -⟩ := first_some (t := w.map (Option.map fun a => -a / 2)) (c := 0) s4
    exact ⟨r, by simp [logpdfFull, l1, hg.dim, e1, e2, e3, e4, h1, show (w.map (Option.map fun a => -a / 2)).shape = [1] ++ v from s4]⟩
  · exact ⟨w.map (Option.map fun a => -a / 2), by simp [logpdfFull, l1, hg.dim, e1, e2, e3, e4, show (w.map (Option.map fun a => -a / 2)).shape = k :: v from s4, hk]⟩

/-- **C69.** Log-densities of batches, with broadcasting of their dimensions: the value for every index of the batch and every column is the log-density for the normal at this index, or NaN
if there are NaNs in the column. Missing data of a single column without batch dimensions are in `C69_missing`. -/
theorem C69_logpdf (hg : g.Sized n bm bv) {x : Ten (Option ℝ)} (hx : x.shape = k :: n :: bx) (hm : k = 1 → bx = [] → ∀ i < n, (x.e [0, i]).isSome) :
    (∀ r, g.logpdf x = some r → ∃ u v, bcast bx bm = some u ∧ bcast bv u = some v ∧ r.shape = (if k = 1 then v else k :: v) ∧
      ∀ d, ∀ j < k, r.get (if k = 1 then d else j :: d) = density (g.at' n d) (x.col n d j)) ∧
    ∀ u v, bcast bx bm = some u → bcast bv u = some v → ∃ r, g.logpdf x = some r := by
  have hu : x.uprank = x := by
    unfold uprank
    rw [hx]
  have e : g.logpdf x = g.logpdfFull x := by
    unfold logpdf
    rw [hu]
    dsimp only
    split
    · next h =>
      rw [hx] at h
      cases h
      rw [if_pos]
      have : available x n = List.finRange n := List.filter_eq_self.2 fun i _ => hm rfl rfl i i.2
      rw [this, List.length_finRange]
    · rfl
  rw [e]
  exact ⟨fun r hr => logpdfFull_eq hg hx hr, fun u v hu hv => logpdfFull_returns hg hx hu hv⟩

/-- **C69.** Without batch dimensions, values may be missing: the log-density is that of the available values. -/
theorem C69_missing (hg : g.Sized n [] []) {x : Ten (Option ℝ)} (hx : x.shape = [1, n]) :
    ∃ r, g.logpdf x = some r ∧ r.shape = [] ∧ r.get [] = some ((g.at' n []).logpdf (x.col n [] 0)) := by
  have hc : ∀ i : Fin n, x.col n [] 0 i = x.e [0, i] := fun i => by
    unfold Ten.col Ten.get
    rw [hx, show clip [1, n] [0, (i : ℕ)] = [0, (i : ℕ)] from clip_fin i (0 : Fin 1) [] []]
  by_cases h : ∀ i < n, (x.e [0, i]).isSome
  · obtain ⟨h1, h2⟩ := C69_logpdf hg hx fun _ _ => h
    obtain ⟨r, hr⟩ := h2 [] [] rfl rfl
    obtain ⟨u, v, hu, hv, e1, e2⟩ := h1 r hr
    cases hu
    cases hv
    refine ⟨r, hr, e1, (e2 [] 0 one_pos).trans ?_⟩
    have h' : ∀ i, (x.col n [] 0 i).isSome := fun i => by rw [hc]; exact h i i.2
    rw [density, if_pos h', Normal.logpdf, if_pos h']
  · have hl : (available x n).length ≠ n := fun e => h fun i hi => by
      have : (available x n).length = (List.finRange n).length := by rw [e, List.length_finRange]
      exact List.length_filter_eq_length_iff.1 this ⟨i, hi⟩ (List.mem_finRange _)
    have ha : available x n = (List.finRange n).filter fun i => (x.col n [] 0 i).isSome := by
      unfold available
      congr 1
      funext i
      rw [hc]
    set is := available x n with his
    set g' : BNormal := ⟨⟨[1, is.length], fun i => g.mean.e [0, (is.map (·.val)).getD (i.tail.headD 0) 0]⟩,
        ⟨[is.length, is.length], fun i => g.var.e [(is.map (·.val)).getD (i.headD 0) 0, (is.map (·.val)).getD (i.tail.headD 0) 0]⟩⟩ with hg'
    set x' : Ten (Option ℝ) := ⟨[1, is.length], fun i => x.e [0, (is.map (·.val)).getD (i.tail.headD 0) 0]⟩ with hx'
    have e : g.logpdf x = g'.logpdfFull x' := by
      have hu : x.uprank = x := by
        unfold uprank
        rw [hx]
      unfold logpdf
      rw [hu]
      dsimp only
      rw [hx]
      exact (if_neg hl).trans (if_pos ⟨hg.mean, hg.var⟩)
    have hs : g'.Sized is.length [] [] := ⟨rfl, rfl⟩
    obtain ⟨r, hr⟩ := logpdfFull_returns (k := 1) (x := x') hs rfl rfl rfl
    obtain ⟨u, v, hu, hv, e1, e2⟩ := logpdfFull_eq (k := 1) (x := x') hs rfl hr
    cases hu
    cases hv
    refine ⟨r, e.trans hr, e1, (e2 [] 0 one_pos).trans ?_⟩
    have hget : ∀ i : Fin is.length, (is.map (·.val)).getD (i : ℕ) 0 = (is.get i).val := fun i => by
      simp
    have hx2 : ∀ i, x'.col is.length [] 0 i = x.col n [] 0 (is.get i) := fun i => by
      rw [hc]
      show x.e [0, (is.map (·.val)).getD ((clip [1, is.length] [0, (i : ℕ)]).tail.headD 0) 0] = _
      rw [show clip [1, is.length] [0, (i : ℕ)] = [0, (i : ℕ)] from clip_fin i (0 : Fin 1) [] [], List.tail_cons, List.headD_cons, hget]
    have hg2 : g'.at' is.length [] = (g.at' n []).sub is := by
      unfold at' Normal.sub
      congr 1
      · funext i
        show g.mean.e [0, (is.map (·.val)).getD ((clip [1, is.length] [0, (i : ℕ)]).tail.headD 0) 0] = g.mean.e (clip g.mean.shape _)
        rw [show clip [1, is.length] [0, (i : ℕ)] = [0, (i : ℕ)] from clip_fin i (0 : Fin 1) [] [], List.tail_cons, List.headD_cons, hget, hg.mean,
          show clip [1, n] [0, (is.get i : ℕ)] = _ from clip_fin (is.get i) (0 : Fin 1) [] []]
        rfl
      · funext i j
        show g.var.e [(is.map (·.val)).getD ((clip [is.length, is.length] [(j : ℕ), (i : ℕ)]).headD 0) 0, (is.map (·.val)).getD ((clip [is.length, is.length] [(j : ℕ), (i : ℕ)]).tail.headD 0) 0] =
          g.var.e (clip g.var.shape [(is.get j : ℕ), (is.get i : ℕ)])
        rw [clip_fin i j [] [], hg.var, clip_fin (is.get i) (is.get j) [] [], List.tail_cons, List.headD_cons, List.headD_cons, hget, hget]
        rfl
    have hall : ∀ i, (x'.col is.length [] 0 i).isSome := fun i => by
      rw [hx2]
      have h' : ∀ a ∈ is, (x.col n [] 0 a).isSome := fun a ha' => by
        rw [ha] at ha'
        exact (List.mem_filter.1 ha').2
      exact h' _ (List.get_mem is i)
    rw [density, if_pos hall, Normal.logpdf, if_neg fun h' => h fun i hi => by have := h' ⟨i, hi⟩; rwa [hc] at this, hg2]
    simp only [hx2]
    exact congrArg (fun is' : List (Fin n) => some (((g.at' n []).sub is').logpdfFull fun i => (x.col n [] 0 (is'.get i)).getD 0)) ha

/-- **C69.** Vectors are columns. -/
theorem C69_vector {x : Ten (Option ℝ)} (hx : x.shape = [n]) : x.uprank.shape = [1, n] ∧ g.logpdf x = g.logpdf x.uprank ∧ ∀ i : Fin n, x.uprank.col n [] 0 i = x.e [(i : ℕ)] := by
  have hs : x.uprank.shape = [1, n] := by
    unfold uprank
    rw [hx]
  have hu : x.uprank.uprank = x.uprank := by
    rw [uprank, hs]
  refine ⟨hs, ?_, fun i => ?_⟩
  · unfold logpdf
    rw [hu]
  · unfold Ten.col Ten.get
    rw [hs, show clip [1, n] [0, (i : ℕ)] = [0, (i : ℕ)] from clip_fin i (0 : Fin 1) [] []]
    unfold uprank
    rw [hx]
    rfl

/-- **C69.** Marginals of batches. -/
theorem C69_marginals (hg : g.Sized n bm bv) : ∃ m v, g.marginals = some (m, v) ∧ m.shape = n :: bm ∧ v.shape = n :: bv ∧
    ∀ d, ∀ i : Fin n, (m.get (i :: d), v.get (i :: d)) = ((g.at' n d).marginals.1 i, (g.at' n d).marginals.2 i) := by
  obtain ⟨m, e1, s1⟩ := squeezeLast_some hg.mean
  obtain ⟨v, e2, s2, v3⟩ := diag_some hg.var
  refine ⟨m, v.map (max · 0), by simp [marginals, e1, e2], s1, s2, fun d i => ?_⟩
  rw [squeezeLast_get e1 0, get_map, v3]
  rfl

/-- **C69.** Credible bounds of batches. -/
theorem C69_bounds (hg : g.Sized n bs bs) : ∃ m l u, g.bounds = some (m, l, u) ∧ m.shape = n :: bs ∧ l.shape = n :: bs ∧ u.shape = n :: bs ∧
    ∀ d, ∀ i : Fin n, (m.get (i :: d), l.get (i :: d), u.get (i :: d)) = ((g.at' n d).bounds.1 i, (g.at' n d).bounds.2.1 i, (g.at' n d).bounds.2.2 i) := by
  obtain ⟨m, v, e1, s1, s2, h⟩ := C69_marginals hg
  obtain ⟨l, e3, s3⟩ := zip_some (f := (· - ·)) (a := m) (b := v.map fun v => 1.96 * √v) (s := n :: bs) (by rw [s1, show (v.map fun v => 1.96 * √v).shape = _ from s2, bcast_self])
  obtain ⟨u, e4, s4⟩ := zip_some (f := (· + ·)) (a := m) (b := v.map fun v => 1.96 * √v) (s := n :: bs) (by rw [s1, show (v.map fun v => 1.96 * √v).shape = _ from s2, bcast_self])
  refine ⟨m, l, u, by simp [bounds, e1, e3, e4], s1, s3, s4, fun d i => ?_⟩
  obtain ⟨h1, h2⟩ := Prod.mk.inj (h d i)
  rw [zip_get e3, zip_get e4, get_map, h1, h2]
  rfl

/-- **C69.** Batches without correlations. -/
theorem C69_diagonalise (hg : g.Sized n bm bv) : ∃ r, g.diagonalise = some r ∧ r.Sized n bm bv ∧ ∀ d, r.at' n d = (g.at' n d).diagonalise := by
  obtain ⟨v, e2, s2, v3⟩ := diag_some hg.var
  obtain ⟨D, e3, s3, v4⟩ := diagMat_some s2
  refine ⟨⟨g.mean, D⟩, by simp [diagonalise, e2, e3], ⟨hg.mean, s3⟩, fun d => ?_⟩
  unfold at' Normal.diagonalise
  congr 1
  rw [v4]
  simp only [v3]
  rfl

theorem zip_sized {f : ℝ → ℝ → ℝ} {a b r : Ten ℝ} {c m : ℕ} {s t : List ℕ} (ha : a.shape = c :: m :: s) (hb : b.shape = c :: m :: t) (h : zip f a b = some r) :
    ∃ u, bcast s t = some u ∧ r.shape = c :: m :: u := by
  have := zip_shape h
  rw [ha, hb, bcast_cons, bcast_cons] at this
  obtain ⟨_, h1, h2⟩ := Option.map_eq_some_iff.1 this
  obtain ⟨u, hu, rfl⟩ := Option.map_eq_some_iff.1 h1
  exact ⟨u, hu, h2.symm⟩

/-- **C69.** Sums of batches, with broadcasting of their dimensions. -/
theorem C69_add (hg : g.Sized n bm bv) (hh : h.Sized n bm' bv') {r : BNormal} (hr : g.add h = some r) :
    ∃ u v, bcast bm bm' = some u ∧ bcast bv bv' = some v ∧ r.Sized n u v ∧ ∀ d, r.at' n d = (g.at' n d).add (h.at' n d) := by
  obtain ⟨m, e1, hr⟩ := Option.bind_eq_some_iff.1 hr
  obtain ⟨v, e2, hr⟩ := Option.bind_eq_some_iff.1 hr
  cases hr
  obtain ⟨u, hu, su⟩ := zip_sized hg.mean hh.mean e1
  obtain ⟨w, hw, sw⟩ := zip_sized hg.var hh.var e2
  refine ⟨u, w, hu, hw, ⟨su, sw⟩, fun d => ?_⟩
  unfold at' Normal.add
  congr 1
  · funext i
    exact zip_get e1 _
  · funext i j
    exact zip_get e2 _

/-- **C69.** Sums of batches and columns, with broadcasting of their dimensions. -/
theorem C69_shift (hg : g.Sized n bm bv) {c : Ten ℝ} (hc : c.shape = 1 :: n :: bx) {r : BNormal} (hr : g.addNum c = some r) :
    ∃ u, bcast bm bx = some u ∧ r.Sized n u bv ∧ ∀ d, r.at' n d = (g.at' n d).addVec (c.col n d 0) := by
  obtain ⟨m, e1, hr⟩ := Option.bind_eq_some_iff.1 hr
  cases hr
  obtain ⟨u, hu, su⟩ := zip_sized hg.mean hc e1
  refine ⟨u, hu, ⟨su, hg.var⟩, fun d => ?_⟩
  unfold at' Normal.addVec
  congr 1
  funext i
  exact zip_get e1 _

/-- **C69.** Products of batches and numbers, one for each index of the batch, with broadcasting of their dimensions. -/
theorem C69_mul (hg : g.Sized n bm bv) {c : Ten ℝ} (hc : c.shape = 1 :: 1 :: bx) {r : BNormal} (hr : g.mulNum c = some r) :
    ∃ u v, bcast bm bx = some u ∧ bcast bv bx = some v ∧ r.Sized n u v ∧ ∀ d, r.at' n d = (g.at' n d).mul (c.get (0 :: 0 :: d)) := by
  obtain ⟨m, e1, hr⟩ := Option.bind_eq_some_iff.1 hr
  obtain ⟨cc, e2, hr⟩ := Option.bind_eq_some_iff.1 hr
  obtain ⟨v, e3, hr⟩ := Option.bind_eq_some_iff.1 hr
  cases hr
  have s2 := zip_shape e2
  rw [hc, bcast_self] at s2
  have s1 := zip_shape e1
  rw [hg.mean, hc, bcast_cons, bcast_to_one] at s1
  have s3 := zip_shape e3
  rw [hg.var, ← Option.some.inj s2, bcast_to_one, bcast_to_one] at s3
  obtain ⟨_, h1, t1⟩ := Option.map_eq_some_iff.1 s1
  obtain ⟨u, hu, rfl⟩ := Option.map_eq_some_iff.1 h1
  obtain ⟨_, h3, t3⟩ := Option.map_eq_some_iff.1 s3
  obtain ⟨w, hw, rfl⟩ := Option.map_eq_some_iff.1 h3
  have hk : ∀ (i j : ℕ) d, c.get (j :: i :: d) = c.get (0 :: 0 :: d) := fun i j d => by
    unfold Ten.get
    rw [hc]
    simp [clip]
  refine ⟨u, w, hu, hw, ⟨t1.symm, t3.symm⟩, fun d => ?_⟩
  unfold at' Normal.mul
  congr 1
  · funext i
    show m.get _ = _
    rw [zip_get e1, hk]
    rfl
  · funext i j
    show v.get _ = _
    rw [zip_get e3, zip_get e2, hk]
    rfl

/-- **C69.** Linear transformations of batches, with broadcasting of their dimensions. -/
theorem C69_lmatmul (hg : g.Sized n bm bv) {A : Ten ℝ} (hA : A.shape = n :: k :: bx) {r : BNormal} (hr : g.lmatmul A = some r) :
    ∃ u v, r.Sized k u v ∧ ∀ d, r.at' k d = (g.at' n d).lmatmul (A.mat k n d) := by
  obtain ⟨m, e1, hr⟩ := Option.bind_eq_some_iff.1 hr
  obtain ⟨av, e2, hr⟩ := Option.bind_eq_some_iff.1 hr
  obtain ⟨At, e3, hr⟩ := Option.bind_eq_some_iff.1 hr
  obtain ⟨v, e4, hr⟩ := Option.bind_eq_some_iff.1 hr
  cases hr
  obtain ⟨-, u, hu⟩ := mul_none hA hg.mean e1
  obtain ⟨_, e1', s1, h1⟩ := mul_some hA hg.mean hu
  cases e1.symm.trans e1'
  obtain ⟨-, w, hw⟩ := mul_none hA hg.var e2
  obtain ⟨_, e2', s2, h2⟩ := mul_some hA hg.var hw
  cases e2.symm.trans e2'
  obtain ⟨_, e3', s3, h3⟩ := tr_some hA
  cases e3.symm.trans e3'
  obtain ⟨-, z, hz⟩ := mul_none s2 s3 e4
  obtain ⟨_, e4', s4, h4⟩ := mul_some s2 s3 hz
  cases e4.symm.trans e4'
  refine ⟨u, z, ⟨s1, s4⟩, fun d => ?_⟩
  unfold at' Normal.lmatmul
  congr 1
  · funext i
    exact congrFun (congrFun (h1 d) i) 0
  · rw [h4, h2, h3]

/-- **C69.** The same for `rmatmul`. -/
theorem C69_rmatmul (hg : g.Sized n bm bv) {A : Ten ℝ} (hA : A.shape = k :: n :: bx) {r : BNormal} (hr : g.rmatmul A = some r) :
    ∃ u v, r.Sized k u v ∧ ∀ d, r.at' k d = (g.at' n d).rmatmul (A.mat n k d) := by
  obtain ⟨At, e3, hr⟩ := Option.bind_eq_some_iff.1 hr
  obtain ⟨m, e1, hr⟩ := Option.bind_eq_some_iff.1 hr
  obtain ⟨av, e2, hr⟩ := Option.bind_eq_some_iff.1 hr
  obtain ⟨v, e4, hr⟩ := Option.bind_eq_some_iff.1 hr
  cases hr
  obtain ⟨_, e3', s3, h3⟩ := tr_some hA
  cases e3.symm.trans e3'
  obtain ⟨-, u, hu⟩ := mul_none s3 hg.mean e1
  obtain ⟨_, e1', s1, h1⟩ := mul_some s3 hg.mean hu
  cases e1.symm.trans e1'
  obtain ⟨-, w, hw⟩ := mul_none s3 hg.var e2
  obtain ⟨_, e2', s2, h2⟩ := mul_some s3 hg.var hw
  cases e2.symm.trans e2'
  obtain ⟨-, z, hz⟩ := mul_none s2 hA e4
  obtain ⟨_, e4', s4, h4⟩ := mul_some s2 hA hz
  cases e4.symm.trans e4'
  refine ⟨u, z, ⟨s1, s4⟩, fun d => ?_⟩
  unfold at' Normal.rmatmul
  congr 1
  · funext i
    have := congrFun (congrFun (h1 d) i) 0
    rw [h3] at this
    exact this
  · rw [h4, h2, h3]

/-- **C69.** Arithmetic with batches with equal dimensions returns. -/
theorem C69_returns (hg : g.Sized n bs bs) (hh : h.Sized n bs bs) : (∃ r, g.add h = some r) ∧ (∀ c : Ten ℝ, c.shape = 1 :: n :: bs → ∃ r, g.addNum c = some r) ∧
    (∀ c : Ten ℝ, c.shape = 1 :: 1 :: bs → ∃ r, g.mulNum c = some r) ∧ (∀ A : Ten ℝ, A.shape = n :: k :: bs → ∃ r, g.lmatmul A = some r) ∧
    ∀ A : Ten ℝ, A.shape = k :: n :: bs → ∃ r, g.rmatmul A = some r := by
  refine ⟨?_, fun c hc => ?_, fun c hc => ?_, fun A hA => ?_, fun A hA => ?_⟩
  · obtain ⟨m, e1, -⟩ := zip_some (f := (· + ·)) (a := g.mean) (b := h.mean) (by rw [hg.mean, hh.mean, bcast_self])
    obtain ⟨v, e2, -⟩ := zip_some (f := (· + ·)) (a := g.var) (b := h.var) (by rw [hg.var, hh.var, bcast_self])
    exact ⟨⟨m, v⟩, by simp [add, e1, e2]⟩
  · obtain ⟨m, e1, -⟩ := zip_some (f := (· + ·)) (a := g.mean) (b := c) (by rw [hg.mean, hc, bcast_self])
    exact ⟨⟨m, g.var⟩, by simp [addNum, e1]⟩
  · obtain ⟨m, e1, -⟩ := zip_some (f := (· * ·)) (a := g.mean) (b := c) (s := 1 :: n :: bs) (by rw [hg.mean, hc, bcast_cons, bcast_to_one, bcast_self]; simp)
    obtain ⟨cc, e2, s2⟩ := zip_some (f := (· * ·)) (a := c) (b := c) (by rw [hc, bcast_self])
    obtain ⟨v, e3, -⟩ := zip_some (f := (· * ·)) (a := g.var) (b := cc) (s := n :: n :: bs) (by rw [hg.var, s2, bcast_to_one, bcast_to_one, bcast_self]; simp)
    exact ⟨⟨m, v⟩, by simp [mulNum, e1, e2, e3]⟩
  · obtain ⟨m, e1, -, -⟩ := mul_some hA hg.mean (bcast_self _)
    obtain ⟨av, e2, s2, -⟩ := mul_some hA hg.var (bcast_self _)
    obtain ⟨At, e3, s3, -⟩ := tr_some hA
    obtain ⟨v, e4, -, -⟩ := mul_some s2 s3 (bcast_self _)
    exact ⟨⟨m, v⟩, by simp [lmatmul, e1, e2, e3, e4]⟩
  · obtain ⟨At, e3, s3, -⟩ := tr_some hA
    obtain ⟨m, e1, -, -⟩ := mul_some s3 hg.mean (bcast_self _)
    obtain ⟨av, e2, s2, -⟩ := mul_some s3 hg.var (bcast_self _)
    obtain ⟨v, e4, -, -⟩ := mul_some s2 hA (bcast_self _)
    exact ⟨⟨m, v⟩, by simp [rmatmul, e1, e2, e3, e4]⟩

/-- **C69.** Samples of batches: `k` samples for each index of the batch. -/
theorem C69_sample (root : ∀ n, Matrix (Fin n) (Fin n) ℝ → Matrix (Fin n) (Fin n) ℝ) (hg : g.Sized n bs bs) {z : Ten ℝ} (hz : z.shape = k :: n :: bs) (meanIsZero : Bool) (noise : Option ℝ) :
    ∃ r, g.sample root meanIsZero noise z = some r ∧ r.shape = k :: n :: bs ∧
      ∀ d, ∀ j : Fin k, r.col n d j = (g.at' n d).sample (root n) meanIsZero noise (fun s : Fin k => z.col n d s) j := by
  obtain ⟨v, ev, sv, hv⟩ : ∃ v, (match noise with | none => some g.var | some s => zip (· + ·) g.var (fillDiag s n)) = some v ∧ v.shape = n :: n :: bs ∧ ∀ d, v.mat n n d = (g.at' n d).noisyVar noise := by
    cases noise with
    | none => exact ⟨g.var, rfl, hg.var, fun d => rfl⟩
    | some s =>
      obtain ⟨v, h1, h2⟩ := zip_some (f := (· + ·)) (a := g.var) (b := fillDiag s n) (s := n :: n :: bs) (by rw [hg.var, fillDiag, bcast_cons, bcast_cons, bcast_nil]; rfl)
      refine ⟨v, h1, h2, fun d => ?_⟩
      funext i j
      show v.get _ = _
      rw [zip_get h1]
      exact congrArg (g.var.get _ + ·) (congrFun (congrFun (fillDiag_mat s n d) i) j)
  obtain ⟨R, e1, s1, h1⟩ := onMat_some root sv
  obtain ⟨p, e2, s2, h2⟩ := mul_some s1 hz (bcast_self _)
  have key : ∀ d, ∀ j : Fin k, p.col n d j = root n ((g.at' n d).noisyVar noise) *ᵥ z.col n d j := fun d j => by
    funext i
    have := congrFun (congrFun (h2 d) i) j
    rw [h1, hv] at this
    exact this
  have key' : ∀ (q : Option (Ten ℝ)), (if meanIsZero then some p else zip (· + ·) p g.mean) = q → g.sample root meanIsZero noise z = q := fun q hq => by
    unfold sample
    rw [hg.dim]
    simp only [Option.bind_eq_bind, Option.bind_some]
    cases noise <;> simp_all
  cases meanIsZero with
  | true => exact ⟨p, key' _ rfl, s2, fun d j => key d j⟩
  | false =>
    obtain ⟨r, e3, s3⟩ := zip_some (f := (· + ·)) (a := p) (b := g.mean) (s := k :: n :: bs) (by rw [s2, hg.mean, bcast_to_one, bcast_self]; rfl)
    refine ⟨r, key' _ e3, s3, fun d j => ?_⟩
    funext i
    show r.get _ = _
    rw [zip_get e3]
    have : g.mean.get (j :: i :: d) = g.mean.get (0 :: i :: d) := by
      unfold Ten.get
      rw [hg.mean]
      simp [clip]
    rw [this]
    exact congrArg (· + g.mean.get (0 :: i :: d)) (congrFun (key d j) i)

theorem total_sum : ∀ (s : List ℕ) (f : Fin n → List ℕ → ℝ), ∑ i, total s (f i) = total s fun d => ∑ i, f i d
  | [], _ => rfl
  | m :: s, f => by
    simp only [total]
    rw [Finset.sum_comm]
    exact Finset.sum_congr rfl fun j _ => total_sum s fun i d => f i (j :: d)

theorem total_nonneg : ∀ (s : List ℕ) {f : List ℕ → ℝ}, (∀ d, 0 ≤ f d) → 0 ≤ total s f
  | [], _, h => h []
  | _ :: s, _, h => Finset.sum_nonneg fun _ _ => total_nonneg s fun _ => h _

theorem le_total : ∀ {s d : List ℕ} {f : List ℕ → ℝ}, (∀ d, 0 ≤ f d) → List.Forall₂ (· < ·) d s → f d ≤ total s f
  | [], _, _, _, .nil => le_rfl
  | m :: s, i :: d, f, h, .cons hi hd => by
    refine (le_total (f := fun d => f (i :: d)) (fun _ => h _) hd).trans ?_
    exact Finset.single_le_sum (f := fun i : Fin m => total s fun d => f (i :: d)) (fun j _ => total_nonneg s fun _ => h _) (Finset.mem_univ ⟨i, hi⟩)

/-- Squared distance of means. -/
def apart (g h : BNormal) (n : ℕ) (d : List ℕ) : ℝ := ∑ i, ((g.at' n d).mean i - (h.at' n d).mean i) ^ 2

/-- Distance of variances. -/
noncomputable def spread (g h : Normal n) : ℝ := g.var.trace + h.var.trace - 2 * (CFC.sqrt (CFC.sqrt g.var * h.var * CFC.sqrt g.var)).trace

theorem w2_eq (g h : Normal n) : g.w2 h = √(max (∑ i, (g.mean i - h.mean i) ^ 2 + spread g h) 0) := rfl

/-- **C69.** What `w2` computes for batches: squared distances of means are summed over the whole batch. -/
theorem C69_w2 (hg : g.Sized n bs bs) (hh : h.Sized n bs bs) :
    ∃ r, g.w2 h = some r ∧ r.shape = bs ∧ ∀ d, r.get d = √(max (total bs (apart g h n) + spread (g.at' n d) (h.at' n d)) 0) := by
  obtain ⟨R, e1, s1, h1⟩ := onMat_some (fun _ A => CFC.sqrt A) hg.var
  obtain ⟨p, e2, s2, h2⟩ := mul_some s1 hh.var (bcast_self _)
  obtain ⟨q, e3, s3, h3⟩ := mul_some s2 s1 (bcast_self _)
  obtain ⟨Q, e4, s4, h4⟩ := onMat_some (fun _ A => CFC.sqrt A) s3
  obtain ⟨t1, e5, s5, h5⟩ := ofMat_some (fun _ A => A.trace) hg.var
  obtain ⟨t2, e6, s6, h6⟩ := ofMat_some (fun _ A => A.trace) hh.var
  obtain ⟨t3, e7, s7, h7⟩ := ofMat_some (fun _ A => A.trace) s4
  obtain ⟨u1, e8, s8⟩ := zip_some (f := (· + ·)) (a := t1) (b := t2) (s := bs) (by rw [s5, s6, bcast_self])
  obtain ⟨u2, e9, s9⟩ := zip_some (f := (· - ·)) (a := u1) (b := t3.map (2 * ·)) (s := bs) (by rw [s8, show (t3.map (2 * ·)).shape = bs from s7, bcast_self])
  obtain ⟨df, e10, s10⟩ := zip_some (f := (· - ·)) (a := g.mean) (b := h.mean) (s := 1 :: n :: bs) (by rw [hg.mean, hh.mean, bcast_self])
  obtain ⟨u3, e11, s11⟩ := zip_some (f := (· + ·)) (a := (df.map (· ^ 2)).sum) (b := u2) (s := bs) (congrArg some s9)
  refine ⟨u3.map fun a => √(max a 0), by simp [w2, e1, e2, e3, e4, e5, e6, e7, e8, e9, e10, e11], s11, fun d => ?_⟩
  rw [get_map, zip_get e11, zip_get e9, zip_get e8, get_map, h5, h6, h7, h4, h3, h2, h1]
  congr 3
  show total (df.map (· ^ 2)).shape _ = _
  rw [show (df.map (· ^ 2)).shape = 1 :: n :: bs from s10]
  simp only [total, Fin.sum_univ_one]
  rw [total_sum]
  congr 1
  funext d
  refine Finset.sum_congr rfl fun i _ => ?_
  obtain ⟨_, -, rfl⟩ := Option.map_eq_some_iff.1 e10
  rfl

/-- **C69.** Without batch dimensions, `w2` is the distance. -/
theorem C69_w2_single (hg : g.Sized n [] []) (hh : h.Sized n [] []) : ∃ r, g.w2 h = some r ∧ r.shape = [] ∧ r.get [] = (g.at' n []).w2 (h.at' n []) := by
  obtain ⟨r, h1, h2, h3⟩ := C69_w2 hg hh
  exact ⟨r, h1, h2, h3 []⟩

/-- **C69.** With batch dimensions, `w2` is at least the distance. -/
theorem C69_w2_bound (hg : g.Sized n bs bs) (hh : h.Sized n bs bs) {r : Ten ℝ} (hr : g.w2 h = some r) {d : List ℕ} (hd : List.Forall₂ (· < ·) d bs) :
    (g.at' n d).w2 (h.at' n d) ≤ r.get d := by
  obtain ⟨_, h1, -, h3⟩ := C69_w2 hg hh
  cases hr.symm.trans h1
  rw [h3, w2_eq]
  refine Real.sqrt_le_sqrt (max_le_max (add_le_add_left ?_ _) le_rfl)
  exact le_total (f := apart g h n) (fun d => Finset.sum_nonneg fun i _ => sq_nonneg _) hd

/-- **C69.** Without batch dimensions, `m2` is the second moment. -/
theorem C69_m2 (hg : g.Sized n [] []) : ∃ r, g.m2 = some r ∧ r.shape = [n, n] ∧ ∀ d, r.mat n n d = (g.at' n []).m2 := by
  set c := g.mean.squeeze.uprank with hc
  have hs : c.shape = [1, n] := by
    rw [hc]
    unfold squeeze uprank
    rw [hg.mean]
    by_cases h : n = 1
    · subst h
      rfl
    · simp [h]
  have hv : ∀ (i : Fin n) d, c.get (0 :: i :: d) = (g.at' n []).mean i := fun i d => by
    show _ = g.mean.e (clip g.mean.shape _)
    unfold Ten.get
    rw [hs, show clip [1, n] (0 :: (i : ℕ) :: d) = [0, (i : ℕ)] from clip_fin i (0 : Fin 1) [] d, hg.mean, show clip [1, n] [0, (i : ℕ)] = [0, (i : ℕ)] from clip_fin i (0 : Fin 1) [] [], hc]
    unfold squeeze uprank
    rw [hg.mean]
    by_cases h : n = 1
    · subst h
      have : (i : ℕ) = 0 := by omega
      rw [this]
      rfl
    · simp [h, unsqueeze]
  obtain ⟨ct, e1, s1, h1⟩ := tr_some hs
  obtain ⟨p, e2, s2, h2⟩ := mul_some hs s1 rfl
  obtain ⟨r, e3, s3⟩ := zip_some (f := (· + ·)) (a := g.var) (b := p) (s := [n, n]) (by rw [hg.var, s2, bcast_self])
  refine ⟨r, by simp [m2, outer, ← hc, e1, e2, e3], s3, fun d => ?_⟩
  funext i j
  show r.get _ = _
  rw [zip_get e3]
  have hp : p.get (j :: i :: d) = c.get (0 :: i :: d) * c.get (0 :: j :: d) := by
    have := congrFun (congrFun (h2 d) i) j
    rw [h1, Matrix.mul_apply, Fin.sum_univ_one] at this
    exact this
  rw [hp, hv, hv]
  have : g.var.get (j :: i :: d) = (g.at' n []).var i j := by
    show g.var.e (clip _ _) = g.var.e (clip _ _)
    rw [hg.var, clip_fin, clip_fin]
    rfl
  rw [this]
  rfl

/-- **C69.** With batch dimensions, `m2` raises. -/
theorem C69_m2_raises {b : ℕ} (hg : g.Sized n [b] [b]) (hn : 1 < n) (hb : 1 < b) (h : n ≠ b) : g.m2 = none := by
  have hs : g.mean.squeeze.uprank.shape = [n, b] := by
    unfold squeeze uprank
    rw [hg.mean]
    simp [show n ≠ 1 by omega, show b ≠ 1 by omega]
  obtain ⟨ct, e1, s1, -⟩ := tr_some hs
  obtain ⟨p, e2, s2, -⟩ := mul_some hs s1 rfl
  have e3 : zip (· + ·) g.var p = none := by
    rw [zip, hg.var, s2]
    simp [bcast, h, show n ≠ 1 by omega, show b ≠ 1 by omega]
  simp [m2, outer, e1, e2, e3]

/-- **C69.** If the batch has as many elements as the normal, `m2` returns but mixes the elements of the batch: what it adds to the variances are the inner products of the means in the batch. -/
theorem C69_m2_wrong (hg : g.Sized n [n] [n]) (hn : 1 < n) : ∃ r, g.m2 = some r ∧ r.shape = [n, n, n] ∧
    ∀ d, ∀ i j : Fin n, r.get (j :: i :: d) = (g.at' n d).var i j + ∑ k, (g.at' n [(i : ℕ)]).mean k * (g.at' n [(j : ℕ)]).mean k := by
  have h1 : n ≠ 1 := by omega
  set c := g.mean.squeeze.uprank with hc
  have hs : c.shape = [n, n] := by
    rw [hc]
    unfold squeeze uprank
    rw [hg.mean]
    simp [h1]
  have hv : ∀ (i k : Fin n) d, c.get (k :: i :: d) = (g.at' n [(i : ℕ)]).mean k := fun i k d => by
    show _ = g.mean.e (clip g.mean.shape _)
    unfold Ten.get
    rw [hs, clip_fin i k, hg.mean, hc]
    unfold squeeze uprank
    rw [hg.mean]
    simp [h1, unsqueeze, clip]
  obtain ⟨ct, e1, s1, h1⟩ := tr_some hs
  obtain ⟨p, e2, s2, h2⟩ := mul_some hs s1 rfl
  obtain ⟨r, e3, s3⟩ := zip_some (f := (· + ·)) (a := g.var) (b := p) (s := [n, n, n]) (by rw [hg.var, s2, bcast_cons, bcast_cons, bcast_nil]; rfl)
  refine ⟨r, by simp [m2, outer, ← hc, e1, e2, e3], s3, fun d i j => ?_⟩
  rw [zip_get e3]
  have hp : p.get (j :: i :: d) = ∑ k : Fin n, c.get (k :: i :: d) * c.get (k :: j :: d) := by
    have := congrFun (congrFun (h2 d) i) j
    rw [h1, Matrix.mul_apply] at this
    exact this
  rw [hp]
  simp only [hv]
  rfl

/-! ## Examples -/

/-- A batch of two standard normal numbers with given means. -/
def pair (a b : ℝ) : BNormal := ⟨⟨[1, 1, 2], fun i => if i.getD 2 0 = 0 then a else b⟩, ⟨[1, 1], fun _ => 1⟩⟩

/-- The same, with a variance for each. -/
def pair2 (a b : ℝ) : BNormal := ⟨⟨[1, 1, 2], fun i => if i.getD 2 0 = 0 then a else b⟩, ⟨[1, 1, 2], fun _ => 1⟩⟩

theorem pair_sized (a b : ℝ) : (pair a b).Sized 1 [2] [] := ⟨rfl, rfl⟩

theorem pair2_sized (a b : ℝ) : (pair2 a b).Sized 1 [2] [2] := ⟨rfl, rfl⟩

/-- C69 for log-densities: the mean has two elements, the variance and the data are broadcast. -/
example (a b y : ℝ) : ∃ r, (pair a b).logpdf ⟨[1, 1], fun _ => some y⟩ = some r ∧ r.shape = [2] ∧
    r.get [0] = some (-(Real.log (2 * Real.pi) + (y - a) ^ 2) / 2) ∧ r.get [1] = some (-(Real.log (2 * Real.pi) + (y - b) ^ 2) / 2) := by
  obtain ⟨h1, h2⟩ := C69_logpdf (k := 1) (x := ⟨[1, 1], fun _ => some y⟩) (pair_sized a b) rfl fun _ _ _ _ => rfl
  obtain ⟨r, hr⟩ := h2 [2] [2] rfl rfl
  obtain ⟨u, v, hu, hv, e1, e2⟩ := h1 r hr
  cases hu
  cases hv
  have e : ∀ (d : List ℕ) c, (pair a b).at' 1 d = ⟨fun _ => c, 1⟩ → density ((pair a b).at' 1 d) (Ten.col ⟨[1, 1], fun _ => some y⟩ 1 d 0) = some (-(Real.log (2 * Real.pi) + (y - c) ^ 2) / 2) := fun d c hd => by
    rw [hd, density]
    refine (if_pos fun i => (rfl : (some y).isSome = true)).trans ?_
    simp [Normal.logpdfFull, dotProduct, Ten.col, Ten.get, sq]
  have hv : ∀ d, (pair a b).var.mat 1 1 d = 1 := fun d => by
    funext i j
    rw [Subsingleton.elim i j, Matrix.one_apply_eq]
    rfl
  refine ⟨r, hr, e1, (e2 [0] 0 one_pos).trans (e _ _ ?_), (e2 [1] 0 one_pos).trans (e _ _ ?_)⟩
  · exact congrArg₂ Normal.mk rfl (hv _)
  · exact congrArg₂ Normal.mk rfl (hv _)

theorem sqrt_one' : CFC.sqrt (1 : Matrix (Fin 1) (Fin 1) ℝ) = 1 := by simp

/-- C69 for KL divergences, arithmetic, marginals and samples: two batches of two normals. -/
example (a b c d : ℝ) : (∃ r, (pair2 a b).kl (pair2 c d) = some r ∧ r.shape = [2] ∧ r.get [0] = some (((pair2 a b).at' 1 [0]).kl ((pair2 c d).at' 1 [0])) ∧
      r.get [1] = some (((pair2 a b).at' 1 [1]).kl ((pair2 c d).at' 1 [1]))) ∧
    (∃ r, (pair2 a b).add (pair2 c d) = some r ∧ r.mean.get [0, 0, 0] = a + c ∧ r.mean.get [0, 0, 1] = b + d ∧ r.var.get [0, 0, 1] = 2) ∧
    (∃ r, (pair2 a b).mulNum ⟨[1, 1, 2], fun i => if i.getD 2 0 = 0 then c else d⟩ = some r ∧ r.var.get [0, 0, 1] = d * d) ∧
    ∃ m v, (pair2 a b).marginals = some (m, v) ∧ m.get [0, 0] = a ∧ m.get [0, 1] = b ∧ v.get [0, 1] = 1 := by
  obtain ⟨h1, -, h2, -⟩ := C69_returns (k := 1) (pair2_sized a b) (pair2_sized c d)
  refine ⟨?_, ?_, ?_, ?_⟩
  · obtain ⟨r, e1, e2⟩ := C69_kl_returns (pair2_sized a b) (pair2_sized c d)
    exact ⟨r, e1, e2, C69_kl (pair2_sized a b) (pair2_sized c d) e1 _, C69_kl (pair2_sized a b) (pair2_sized c d) e1 _⟩
  · obtain ⟨r, hr⟩ := h1
    obtain ⟨-, -, -, -, -, h⟩ := C69_add (pair2_sized a b) (pair2_sized c d) hr
    refine ⟨r, hr, (congrFun (congrArg Normal.mean (h [0])) 0).trans (by simp [Normal.add, at', pair2, Ten.col, Ten.get, clip]),
      (congrFun (congrArg Normal.mean (h [1])) 0).trans (by simp [Normal.add, at', pair2, Ten.col, Ten.get, clip]),
      (congrFun (congrFun (congrArg Normal.var (h [1])) 0) 0).trans (by norm_num [Normal.add, at', pair2, Ten.mat, Ten.get, clip])⟩
  · obtain ⟨r, hr⟩ := h2 ⟨[1, 1, 2], fun i => if i.getD 2 0 = 0 then c else d⟩ rfl
    obtain ⟨-, -, -, -, -, h⟩ := C69_mul (pair2_sized a b) rfl hr
    exact ⟨r, hr, (congrFun (congrFun (congrArg Normal.var (h [1])) 0) 0).trans (by simp [Normal.mul, at', pair2, Ten.mat, Ten.get, clip])⟩
  · obtain ⟨m, v, e, -, -, h⟩ := C69_marginals (pair2_sized a b)
    obtain ⟨h1, -⟩ := Prod.mk.inj (h [0] 0)
    obtain ⟨h2, h3⟩ := Prod.mk.inj (h [1] 0)
    exact ⟨m, v, e, h1.trans (by simp [Normal.marginals, at', pair2, Ten.col, Ten.get, clip]), h2.trans (by simp [Normal.marginals, at', pair2, Ten.col, Ten.get, clip]),
      h3.trans (by simp [Normal.marginals, Normal.varDiag, at', pair2, Ten.mat, Ten.get])⟩

/-- **C69.** `w2` is wrong for batches: the distances of N(0, 1) and N(0, 1), and of N(0, 1) and N(1, 1), are 0 and 1, and `w2` returns 1 and 1. -/
theorem C69_w2_wrong : ∃ r, (pair2 0 0).w2 (pair2 0 1) = some r ∧ r.shape = [2] ∧ r.get [0] = 1 ∧ r.get [1] = 1 ∧
    ((pair2 0 0).at' 1 [0]).w2 ((pair2 0 1).at' 1 [0]) = 0 ∧ ((pair2 0 0).at' 1 [1]).w2 ((pair2 0 1).at' 1 [1]) = 1 := by
  have hv : ∀ a b d, (pair2 a b).var.mat 1 1 d = 1 := fun a b d => by
    funext i j
    rw [Subsingleton.elim i j, Matrix.one_apply_eq]
    rfl
  have hs : ∀ a b a' b' d, spread ((pair2 a b).at' 1 d) ((pair2 a' b').at' 1 d) = 0 := fun a b a' b' d => by
    unfold spread at'
    rw [hv, hv, sqrt_one']
    simp
    norm_num
  obtain ⟨r, h1, h2, h3⟩ := C69_w2 (pair2_sized 0 0) (pair2_sized 0 1)
  have ha : total [2] (apart (pair2 0 0) (pair2 0 1) 1) = 1 := by
    simp [total, apart, at', pair2, Ten.col, Ten.get, clip, Fin.sum_univ_two]
  refine ⟨r, h1, h2, ?_, ?_, ?_, ?_⟩
  · rw [h3, ha, hs]; simp
  · rw [h3, ha, hs]; simp
  · rw [w2_eq, hs]
    simp [at', pair2, Ten.col, Ten.get, clip]
  · rw [w2_eq, hs]
    simp [at', pair2, Ten.col, Ten.get, clip]

end BNormal

end Stheno
