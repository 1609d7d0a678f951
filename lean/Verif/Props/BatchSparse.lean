import Verif.BatchSparse
import Verif.Props.Batch
import Verif.Sparse

/-!
# Batches of observations

**C70.** For arrays with batch dimensions, `_compute` computes for every index of the batch what it computes for the matrices at this index. Concatenated
values are taken apart again.
-/

namespace Stheno

open Matrix

namespace Ten
variable {α β γ : Type}

/-- An array with the batch dimensions `s` can be broadcast to `u`. -/
def Fits (s u : List ℕ) : Prop := bcast s u = some u

theorem bcast_comm : ∀ s t : List ℕ, bcast s t = bcast t s
  | [], t => (bcast_nil t).symm
  | a :: s, [] => rfl
  | a :: s, b :: t => by
    by_cases h : a = b
    · subst h
      rw [bcast_cons, bcast_cons, bcast_comm s t]
    · by_cases ha : a = 1
      · subst ha
        rw [bcast_of_one, bcast_to_one, bcast_comm s t]
      · by_cases hb : b = 1
        · subst hb
          rw [bcast_of_one, bcast_to_one, bcast_comm s t]
        · simp [bcast, h, ha, hb, Ne.symm h]

theorem Fits.nil (u : List ℕ) : Fits [] u := rfl

theorem Fits.refl (u : List ℕ) : Fits u u := bcast_self u

theorem Fits.cases {a b : ℕ} {s u : List ℕ} (h : Fits (a :: s) (b :: u)) : (a = b ∨ a = 1) ∧ Fits s u := by
  unfold Fits bcast at h
  split at h
  · next e =>
    obtain ⟨v, hv, e'⟩ := Option.map_eq_some_iff.1 h
    exact ⟨.inl e, hv.trans (congrArg some (List.cons.inj e').2)⟩
  · split at h
    · next e =>
      obtain ⟨v, hv, e'⟩ := Option.map_eq_some_iff.1 h
      exact ⟨.inr e, hv.trans (congrArg some (List.cons.inj e').2)⟩
    · split at h
      · obtain ⟨v, hv, e'⟩ := Option.map_eq_some_iff.1 h
        exact ⟨.inl (List.cons.inj e').1, hv.trans (congrArg some (List.cons.inj e').2)⟩
      · cases h

theorem Fits.cons {a b : ℕ} {s u : List ℕ} (h : Fits s u) (e : a = b ∨ a = 1) : Fits (a :: s) (b :: u) := by
  unfold Fits at *
  rcases e with rfl | rfl
  · rw [bcast_cons, h]; rfl
  · rw [bcast_of_one, h]; rfl

theorem Fits.antisymm : ∀ {s u : List ℕ}, Fits s u → Fits u s → s = u
  | [], [], _, _ => rfl
  | [], b :: u, _, h => by cases h
  | a :: s, [], h, _ => by cases h
  | a :: s, b :: u, h, h' => by
    obtain ⟨e, h⟩ := h.cases
    obtain ⟨e', h'⟩ := h'.cases
    rw [h.antisymm h', show a = b by omega]

/-- Arrays that can be broadcast to the same shape can be broadcast together. -/
theorem Fits.bcast : ∀ {s t u : List ℕ}, Fits s u → Fits t u → ∃ v, bcast s t = some v ∧ Fits v u
  | [], t, u, _, h => ⟨t, rfl, h⟩
  | a :: s, [], u, h, _ => ⟨a :: s, rfl, h⟩
  | a :: s, b :: t, [], h, _ => by cases h
  | a :: s, b :: t, c :: u, h, h' => by
    obtain ⟨e, h⟩ := h.cases
    obtain ⟨e', h'⟩ := h'.cases
    obtain ⟨v, hv, hu⟩ := h.bcast h'
    by_cases hab : a = b
    · subst hab
      exact ⟨a :: v, by rw [bcast_cons, hv]; rfl, hu.cons e⟩
    · by_cases ha : a = 1
      · subst ha
        exact ⟨b :: v, by rw [bcast_of_one, hv]; rfl, hu.cons e'⟩
      · have : b = 1 := by omega
        subst this
        exact ⟨a :: v, by rw [bcast_to_one, hv]; rfl, hu.cons e⟩

theorem fits_left {s t v : List ℕ} (h : bcast s t = some v) : Fits s v := bcast_again h

theorem fits_right {s t v : List ℕ} (h : bcast s t = some v) : Fits t v := bcast_again (by rw [bcast_comm, h])

theorem Fits.trans : ∀ {s t u : List ℕ}, Fits s t → Fits t u → Fits s u
  | [], _, u, _, _ => rfl
  | a :: s, [], u, h, _ => by cases h
  | a :: s, b :: t, [], _, h => by cases h
  | a :: s, b :: t, c :: u, h, h' => by
    obtain ⟨e, h⟩ := h.cases
    obtain ⟨e', h'⟩ := h'.cases
    exact (h.trans h').cons (by omega)

/-- An array of matrices with batch dimensions between `l` and `u`, and the matrices. -/
def Mats (l u : List ℕ) (t : Ten ℝ) (r c : ℕ) (F : List ℕ → Matrix (Fin r) (Fin c) ℝ) : Prop :=
  ∃ s, t.shape = c :: r :: s ∧ Fits l s ∧ Fits s u ∧ ∀ d, t.mat r c d = F d

/-- An array of vectors. -/
def Vecs (l u : List ℕ) (t : Ten ℝ) (n : ℕ) (F : List ℕ → Fin n → ℝ) : Prop := ∃ s, t.shape = n :: s ∧ Fits l s ∧ Fits s u ∧ ∀ d, ∀ i : Fin n, t.get (i :: d) = F d i

/-- An array of numbers. -/
def Nums (l u : List ℕ) (t : Ten ℝ) (F : List ℕ → ℝ) : Prop := Fits l t.shape ∧ Fits t.shape u ∧ ∀ d, t.get d = F d

section
variable {l l' u : List ℕ} {a b c : Ten ℝ} {n m k : ℕ} {F : List ℕ → Matrix (Fin n) (Fin m) ℝ}

theorem Mats.mul {G : List ℕ → Matrix (Fin m) (Fin k) ℝ} (ha : Mats l u a n m F) (hb : Mats l' u b m k G) :
    ∃ p, mul a b = some p ∧ Mats l u p n k (fun d => F d * G d) ∧ Mats l' u p n k fun d => F d * G d := by
  obtain ⟨s, a1, a2, a3, a4⟩ := ha
  obtain ⟨t, b1, b2, b3, b4⟩ := hb
  obtain ⟨v, hv, hu⟩ := a3.bcast b3
  obtain ⟨p, p1, p2, p3⟩ := mul_some a1 b1 hv
  exact ⟨p, p1, ⟨v, p2, a2.trans (fits_left hv), hu, fun d => by rw [p3, a4, b4]⟩, ⟨v, p2, b2.trans (fits_right hv), hu, fun d => by rw [p3, a4, b4]⟩⟩

theorem Mats.zip {G : List ℕ → Matrix (Fin n) (Fin m) ℝ} (f : ℝ → ℝ → ℝ) (ha : Mats l u a n m F) (hb : Mats l' u b n m G) :
    ∃ p, zip f a b = some p ∧ Mats l u p n m (fun d i j => f (F d i j) (G d i j)) ∧ Mats l' u p n m fun d i j => f (F d i j) (G d i j) := by
  obtain ⟨s, a1, a2, a3, a4⟩ := ha
  obtain ⟨t, b1, b2, b3, b4⟩ := hb
  obtain ⟨v, hv, hu⟩ := a3.bcast b3
  obtain ⟨p, p1, p2⟩ := zip_some (f := f) (a := a) (b := b) (s := m :: n :: v) (by rw [a1, b1, bcast_cons, bcast_cons, hv]; rfl)
  have h : ∀ d, p.mat n m d = fun i j => f (F d i j) (G d i j) := fun d => by
    funext i j
    rw [← a4, ← b4]
    exact zip_get p1 _
  exact ⟨p, p1, ⟨v, p2, a2.trans (fits_left hv), hu, h⟩, ⟨v, p2, b2.trans (fits_right hv), hu, h⟩⟩

theorem Mats.tr (ha : Mats l u a n m F) : ∃ p, a.tr = some p ∧ Mats l u p m n fun d => (F d)ᵀ := by
  obtain ⟨s, a1, a2, a3, a4⟩ := ha
  obtain ⟨p, p1, p2, p3⟩ := tr_some a1
  exact ⟨p, p1, s, p2, a2, a3, fun d => by rw [p3, a4]⟩

theorem Mats.on {F : List ℕ → Matrix (Fin n) (Fin n) ℝ} (f : ∀ n, Matrix (Fin n) (Fin n) ℝ → Matrix (Fin n) (Fin n) ℝ) (ha : Mats l u a n n F) :
    ∃ p, a.onMat f = some p ∧ Mats l u p n n fun d => f n (F d) := by
  obtain ⟨s, a1, a2, a3, a4⟩ := ha
  obtain ⟨p, p1, p2, p3⟩ := onMat_some f a1
  exact ⟨p, p1, s, p2, a2, a3, fun d => by rw [p3, a4]⟩

theorem Mats.of {F : List ℕ → Matrix (Fin n) (Fin n) ℝ} (f : ∀ n, Matrix (Fin n) (Fin n) ℝ → ℝ) (ha : Mats l u a n n F) :
    ∃ p, a.ofMat f = some p ∧ Nums l u p fun d => f n (F d) := by
  obtain ⟨s, a1, a2, a3, a4⟩ := ha
  obtain ⟨p, p1, p2, p3⟩ := ofMat_some f a1
  exact ⟨p, p1, p2 ▸ a2, p2 ▸ a3, fun d => by rw [p3, a4]⟩

theorem Mats.map (f : ℝ → ℝ) (ha : Mats l u a n m F) : Mats l u (a.map f) n m fun d i j => f (F d i j) := by
  obtain ⟨s, a1, a2, a3, a4⟩ := ha
  refine ⟨s, a1, a2, a3, fun d => ?_⟩
  funext i j
  exact congrArg f (congrFun (congrFun (a4 d) i) j)

theorem Mats.solve {F : List ℕ → Matrix (Fin n) (Fin n) ℝ} {G : List ℕ → Matrix (Fin n) (Fin m) ℝ} (ha : Mats l u a n n F) (hb : Mats l' u b n m G) :
    ∃ p, solve a b = some p ∧ Mats l u p n m (fun d => (F d)⁻¹ * G d) := by
  obtain ⟨q, q1, q2⟩ := ha.on fun _ A => A⁻¹
  obtain ⟨p, p1, p2, -⟩ := q2.mul hb
  exact ⟨p, by simp [Ten.solve, q1, p1], p2⟩

theorem Mats.iqf {F : List ℕ → Matrix (Fin n) (Fin n) ℝ} {G : List ℕ → Matrix (Fin n) (Fin m) ℝ} {H : List ℕ → Matrix (Fin n) (Fin k) ℝ} {l''} (ha : Mats l'' u a n n F)
    (hb : Mats l u b n m G) (hc : Mats l' u c n k H) : ∃ p, iqf a b c = some p ∧ Mats l u p m k fun d => (G d)ᵀ * (F d)⁻¹ * H d := by
  obtain ⟨q, q1, q2⟩ := ha.on fun _ A => A⁻¹
  obtain ⟨t, t1, t2⟩ := hb.tr
  obtain ⟨p, p1, p2, -⟩ := t2.mul q2
  obtain ⟨r, r1, r2, -⟩ := p2.mul hc
  exact ⟨r, by simp [Ten.iqf, q1, t1, p1, r1], r2⟩

theorem Mats.iqfDiag {F : List ℕ → Matrix (Fin n) (Fin n) ℝ} {G : List ℕ → Matrix (Fin n) (Fin 1) ℝ} (ha : Mats l u a n n F) (hb : Mats l' u b n 1 G) :
    ∃ p q, iqfDiag' a b = some p ∧ p.first = some q ∧ Nums l u q fun d => (fun i => G d i 0) ⬝ᵥ ((F d)⁻¹ *ᵥ fun i => G d i 0) := by
  obtain ⟨s, a1, a2, a3, a4⟩ := ha
  obtain ⟨t, b1, b2, b3, b4⟩ := hb
  obtain ⟨v, hv, hu⟩ := a3.bcast b3
  obtain ⟨p, p1, p2, p3⟩ := iqfDiag_some (b := b.map some) a1 b1 hv
  obtain ⟨q, q1, q2⟩ := first_some (t := p.map fun o : Option ℝ => o.getD 0) p2
  refine ⟨p.map fun o => o.getD 0, q, by simp [iqfDiag', p1], q1, ?_, ?_, fun d => ?_⟩
  · rw [q2]; exact a2.trans (fits_left hv)
  · rw [q2]; exact hu
  · have hs : ∀ i, ((b.map some).col n d 0 i).isSome = true := fun i => rfl
    rw [first_get q1, get_map, p3 d 0 one_pos, quad, if_pos hs, a4]
    have e : ∀ i : Fin n, b.get ((0 : ℕ) :: (i : ℕ) :: d) = G d i 0 := fun i => congrFun (congrFun (b4 d) i) 0
    simp only [Option.getD_some, Ten.col, get_map, e]

theorem Mats.matmulDiag {G : List ℕ → Matrix (Fin n) (Fin m) ℝ} (ha : Mats l u a n m F) (hb : Mats l' u b n m G) :
    ∃ p, matmulDiag a b = some p ∧ Vecs l u p m fun d j => ∑ i, F d i j * G d i j := by
  obtain ⟨t, t1, t2⟩ := ha.tr
  obtain ⟨p, p1, ⟨s, s1, s2, s3, s4⟩, -⟩ := t2.mul hb
  obtain ⟨q, q1, q2, q3⟩ := diag_some s1
  refine ⟨q, by simp [Ten.matmulDiag, t1, p1, q1], s, q2, s2, s3, fun d i => ?_⟩
  rw [q3]
  exact congrFun (congrFun (s4 d) i) i

theorem Mats.first {G : List ℕ → Matrix (Fin n) (Fin 1) ℝ} (ha : Mats l u a n 1 G) : ∃ p, a.first = some p ∧ Vecs l u p n fun d i => G d i 0 := by
  obtain ⟨s, a1, a2, a3, a4⟩ := ha
  obtain ⟨q, q1, q2⟩ := first_some a1
  refine ⟨q, q1, s, q2, a2, a3, fun d i => ?_⟩
  rw [first_get q1]
  exact congrFun (congrFun (a4 d) i) 0

theorem Vecs.zip {F G : List ℕ → Fin n → ℝ} (f : ℝ → ℝ → ℝ) (ha : Vecs l u a n F) (hb : Vecs l' u b n G) : ∃ p, zip f a b = some p ∧ Vecs l u p n fun d i => f (F d i) (G d i) := by
  obtain ⟨s, a1, a2, a3, a4⟩ := ha
  obtain ⟨t, b1, b2, b3, b4⟩ := hb
  obtain ⟨v, hv, hu⟩ := a3.bcast b3
  obtain ⟨p, p1, p2⟩ := zip_some (f := f) (a := a) (b := b) (s := n :: v) (by rw [a1, b1, bcast_cons, hv]; rfl)
  exact ⟨p, p1, v, p2, a2.trans (fits_left hv), hu, fun d i => by rw [zip_get p1, a4, b4]⟩

theorem Vecs.zip_num {F : List ℕ → Fin n → ℝ} (f : ℝ → ℝ → ℝ) (x : ℝ) (ha : Vecs l u a n F) : ∃ p, Ten.zip f a (num x) = some p ∧ Vecs l u p n fun d i => f (F d i) x := by
  obtain ⟨s, a1, a2, a3, a4⟩ := ha
  obtain ⟨p, p1, p2⟩ := zip_some (f := f) (a := a) (b := num x) (s := n :: s) (by rw [a1]; rfl)
  exact ⟨p, p1, s, p2, a2, a3, fun d i => by rw [zip_get p1, a4]; rfl⟩

theorem Vecs.diagMat {F : List ℕ → Fin n → ℝ} (ha : Vecs l u a n F) : ∃ p, a.diagMat = some p ∧ Mats l u p n n fun d => diagonal (F d) := by
  obtain ⟨s, a1, a2, a3, a4⟩ := ha
  obtain ⟨p, p1, p2, p3⟩ := diagMat_some a1
  exact ⟨p, p1, s, p2, a2, a3, fun d => by rw [p3]; simp only [a4]⟩

theorem sumLast_some {s : List ℕ} (hs : a.shape = n :: s) : ∃ p, a.sumLast = some p ∧ p.shape = s ∧ ∀ d, p.get d = ∑ i : Fin n, a.get (i :: d) := by
  refine ⟨_, by rw [sumLast, hs], rfl, fun d => ?_⟩
  show ∑ i : Fin n, a.get (i :: clip s d) = _
  refine Finset.sum_congr rfl fun i _ => ?_
  unfold Ten.get
  rw [hs]
  simp only [clip, Below.refl s d]

theorem Vecs.ratio {F G : List ℕ → Fin n → ℝ} (ha : Vecs l u a n F) (hb : Vecs l' u b n G) : ∃ p, ratioDiag a b = some p ∧ Nums l u p fun d => ∑ i, F d i / G d i := by
  obtain ⟨q, q1, s, s1, s2, s3, s4⟩ := ha.zip (· / ·) hb
  obtain ⟨p, p1, p2, p3⟩ := sumLast_some s1
  exact ⟨p, by simp [ratioDiag, q1, p1], p2 ▸ s2, p2 ▸ s3, fun d => by rw [p3]; simp only [s4]⟩

theorem Nums.zip {F G : List ℕ → ℝ} (f : ℝ → ℝ → ℝ) (ha : Nums l u a F) (hb : Nums l' u b G) :
    ∃ p, zip f a b = some p ∧ Nums l u p (fun d => f (F d) (G d)) ∧ Nums l' u p fun d => f (F d) (G d) := by
  obtain ⟨a2, a3, a4⟩ := ha
  obtain ⟨b2, b3, b4⟩ := hb
  obtain ⟨v, hv, hu⟩ := a3.bcast b3
  obtain ⟨p, p1, p2⟩ := zip_some (f := f) hv
  subst p2
  exact ⟨p, p1, ⟨a2.trans (fits_left hv), hu, fun d => by rw [zip_get p1, a4, b4]⟩, ⟨b2.trans (fits_right hv), hu, fun d => by rw [zip_get p1, a4, b4]⟩⟩

theorem Nums.num (u : List ℕ) (x : ℝ) : Nums [] u (Ten.num x) fun _ => x := ⟨rfl, rfl, fun _ => rfl⟩

theorem Mats.fillDiag (u : List ℕ) (x : ℝ) (n : ℕ) : Mats [] u (fillDiag x n) n n fun _ => diagonal fun _ => x := ⟨[], rfl, rfl, rfl, fun d => fillDiag_mat x n d⟩

end

end Ten

open Ten

/-- The shapes of the data: `n` inducing points, `k` values, and batch dimensions that can be broadcast to `u`. `bz` are those of the kernel matrix of
the inducing points. -/
structure BData.Sized (D : BData) (n k : ℕ) (bz u : List ℕ) : Prop where
  Kz : D.Kz.shape = n :: n :: bz
  fits : Fits bz u
  Kzx : ∃ s, D.Kzx.shape = k :: n :: s ∧ Fits s u
  kx : ∃ s, D.kx.shape = 1 :: k :: s ∧ Fits s u
  noise : ∃ s, D.noise.shape = k :: s ∧ Fits s u
  mx : ∃ s, D.mx.shape = 1 :: k :: s ∧ Fits s u
  mz : ∃ s, D.mz.shape = 1 :: n :: s ∧ Fits s u
  y : ∃ s, D.y.uprank.shape = 1 :: k :: s ∧ Fits s u

theorem mats_of {u : List ℕ} {t : Ten ℝ} {r c : ℕ} (h : ∃ s, t.shape = c :: r :: s ∧ Fits s u) : Mats [] u t r c (t.mat r c) := by
  obtain ⟨s, h1, h2⟩ := h
  exact ⟨s, h1, rfl, h2, fun _ => rfl⟩

namespace BData
variable {D : BData} {n k : ℕ} {bz u : List ℕ}

theorem Sized.correction (hD : D.Sized n k bz u) {W : Ten ℝ} {F : List ℕ → Matrix (Fin n) (Fin k) ℝ} (hW : Mats bz u W n k F) :
    ∃ p, D.correction W = some p ∧ Vecs [] u p k fun d j => D.kx.col k d 0 j - ∑ i, F d i j * F d i j := by
  obtain ⟨f, f1, f2⟩ := (mats_of hD.kx).first
  obtain ⟨q, q1, q2⟩ := hW.matmulDiag hW
  obtain ⟨p, p1, p2⟩ := f2.zip (· - ·) q2
  exact ⟨p, by simp [BData.correction, f1, q1, p1], p2⟩

/-- The functions of `Numerics.lean` with the matrices at an index of the batch. -/
theorem Sized.noiseTrace (μ : Method) (hD : D.Sized n k bz u) {W : Ten ℝ} (hW : Mats bz u W n k fun d => iLzKzx (D.Kz.mat n n d) (D.Kzx.mat n k d)) :
    ∃ Kn t, D.noiseTrace μ W = some (Kn, t) ∧
      Vecs [] u Kn k (fun d => knDiag μ (D.Kz.mat n n d) (D.Kzx.mat n k d) (D.kx.col k d 0) fun j => D.noise.get (j :: d)) ∧
      Nums [] u t fun d => tracePart μ (D.Kz.mat n n d) (D.Kzx.mat n k d) (D.kx.col k d 0) fun j => D.noise.get (j :: d) := by
  have hn : Vecs [] u D.noise k fun d j => D.noise.get (j :: d) := by
    obtain ⟨s, h1, h2⟩ := hD.noise
    exact ⟨s, h1, rfl, h2, fun _ _ => rfl⟩
  obtain ⟨c, c1, c2⟩ := hD.correction hW
  obtain ⟨z, z1, z2⟩ := hn.zip_num (· + ·) 0
  cases μ with
  | vfe =>
    obtain ⟨t, t1, t2⟩ := c2.ratio z2
    exact ⟨z, t, by simp [BData.noiseTrace, c1, z1, t1], z2, t2⟩
  | fitc =>
    obtain ⟨p, p1, p2⟩ := hn.zip (· + ·) c2
    exact ⟨p, num 0, by simp [BData.noiseTrace, c1, p1], p2, .num u 0⟩
  | dtc => exact ⟨z, num 0, by simp [BData.noiseTrace, z1], z2, .num u 0⟩

/-- **C70.** `_compute` for batches: it returns, and stores for every index of the batch what it stores for the matrices at this index. -/
theorem C70_compute (μ : Method) (hD : D.Sized n k bz u) : ∃ r, D.compute μ = some r ∧
    (∃ s, r.A.shape = n :: n :: s ∧ Fits bz s ∧ Fits s u) ∧ (∃ s, r.mu.shape = 1 :: n :: s ∧ Fits bz s ∧ Fits s u) ∧ Fits bz r.elbo.shape ∧ Fits r.elbo.shape u ∧ ∀ d,
      let Kz := D.Kz.mat n n d
      let Kzx := D.Kzx.mat n k d
      let kx := D.kx.col k d 0
      let noise := fun j : Fin k => D.noise.get (j :: d)
      let ybar := fun j : Fin k => D.y.uprank.col k d 0 j - D.mx.col k d 0 j
      r.A.mat n n d = subspaceA μ Kz Kzx kx noise ∧ (∀ i, r.mu.col n d 0 i = D.mz.col n d 0 i + muShift μ Kz Kzx kx noise ybar i) ∧
        r.elbo.get d = elboOf μ Kz Kzx kx noise ybar := by
  have hKz : Mats bz u D.Kz n n (D.Kz.mat n n) := ⟨bz, hD.Kz, .refl _, hD.fits, fun _ => rfl⟩
  obtain ⟨Lz, L1, L2⟩ := hKz.on fun _ A => chol A
  obtain ⟨W, W1, W2⟩ := L2.solve (mats_of hD.Kzx)
  obtain ⟨kn, t, k1, k2, t2⟩ := hD.noiseTrace μ W2
  obtain ⟨Kn, K1, K2⟩ := k2.diagMat
  obtain ⟨Wt, V1, V2⟩ := W2.tr
  obtain ⟨q, q1, q2⟩ := K2.iqf V2 V2
  obtain ⟨A, A1, -, A2⟩ := (Mats.fillDiag u 1 n).zip (· + ·) q2
  obtain ⟨LzT, T1, T2⟩ := L2.tr
  obtain ⟨B, B1, B2, -⟩ := L2.mul A2
  obtain ⟨SA, S1, S2, -⟩ := B2.mul T2
  obtain ⟨yb, y1, y2, -⟩ := (mats_of hD.y).zip (· - ·) (mats_of hD.mx)
  obtain ⟨prod, p1, p2⟩ := K2.iqf V2 y2
  obtain ⟨ms, m1, m2⟩ := A2.iqf T2 p2
  obtain ⟨mu, u1, -, u2⟩ := (mats_of hD.mz).zip (· + ·) m2
  obtain ⟨d1, e1, e2⟩ := (K2.map (2 * Real.pi * ·)).of fun _ A => Real.log A.det
  obtain ⟨d2, f1, f2⟩ := A2.of fun _ A => Real.log A.det
  obtain ⟨det, g1, -, g2⟩ := e2.zip (· + ·) f2
  obtain ⟨i1, j1, h1, h2, h3⟩ := K2.iqfDiag y2
  obtain ⟨i2, j2, h1', h2', h3'⟩ := A2.iqfDiag p2
  obtain ⟨iq, w1, w2, -⟩ := h3.zip (· - ·) h3'
  obtain ⟨s1, v1, v2, -⟩ := g2.zip (· + ·) w2
  obtain ⟨s2, x1, x2, -⟩ := v2.zip (· + ·) t2
  refine ⟨⟨SA, mu, s2.map (-(1 / 2) * ·)⟩, ?_, ?_, ?_, x2.1, x2.2.1, fun d => ?_⟩
  · have hn : D.Kz.shape.head? = some n := by rw [hD.Kz]; rfl
    refine Option.bind_eq_some_iff.2 ⟨_, L1, ?_⟩
    refine Option.bind_eq_some_iff.2 ⟨_, W1, ?_⟩
    refine Option.bind_eq_some_iff.2 ⟨_, k1, ?_⟩
    refine Option.bind_eq_some_iff.2 ⟨_, K1, ?_⟩
    refine Option.bind_eq_some_iff.2 ⟨_, V1, ?_⟩
    refine Option.bind_eq_some_iff.2 ⟨_, hn, ?_⟩
    refine Option.bind_eq_some_iff.2 ⟨_, q1, ?_⟩
    refine Option.bind_eq_some_iff.2 ⟨_, A1, ?_⟩
    refine Option.bind_eq_some_iff.2 ⟨_, T1, ?_⟩
    refine Option.bind_eq_some_iff.2 ⟨_, B1, ?_⟩
    refine Option.bind_eq_some_iff.2 ⟨_, S1, ?_⟩
    refine Option.bind_eq_some_iff.2 ⟨_, y1, ?_⟩
    refine Option.bind_eq_some_iff.2 ⟨_, p1, ?_⟩
    refine Option.bind_eq_some_iff.2 ⟨_, m1, ?_⟩
    refine Option.bind_eq_some_iff.2 ⟨_, u1, ?_⟩
    refine Option.bind_eq_some_iff.2 ⟨_, e1, ?_⟩
    refine Option.bind_eq_some_iff.2 ⟨_, f1, ?_⟩
    refine Option.bind_eq_some_iff.2 ⟨_, g1, ?_⟩
    refine Option.bind_eq_some_iff.2 ⟨_, h1, ?_⟩
    refine Option.bind_eq_some_iff.2 ⟨_, h2, ?_⟩
    refine Option.bind_eq_some_iff.2 ⟨_, h1', ?_⟩
    refine Option.bind_eq_some_iff.2 ⟨_, h2', ?_⟩
    refine Option.bind_eq_some_iff.2 ⟨_, w1, ?_⟩
    refine Option.bind_eq_some_iff.2 ⟨_, v1, ?_⟩
    refine Option.bind_eq_some_iff.2 ⟨_, x1, ?_⟩
    rfl
  · obtain ⟨s, a, b, c, -⟩ := S2
    exact ⟨s, a, b, c⟩
  · obtain ⟨s, a, b, c, -⟩ := u2
    exact ⟨s, a, b, c⟩
  · intro Kz Kzx kx noise ybar
    refine ⟨?_, fun i => ?_, ?_⟩
    · obtain ⟨s, -, -, -, h⟩ := S2
      exact h d
    · obtain ⟨s, -, -, -, h⟩ := u2
      exact congrFun (congrFun (h d) i) 0
    · exact congrArg (-(1 / 2) * ·) (x2.2.2 d)

/-- **C70.** If the kernel matrix of the inducing points has all batch dimensions, so has everything that `_compute` stores. -/
theorem C70_shapes (μ : Method) (hD : D.Sized n k u u) : ∃ r, D.compute μ = some r ∧ r.A.shape = n :: n :: u ∧ r.mu.shape = 1 :: n :: u ∧ r.elbo.shape = u := by
  obtain ⟨r, h, ⟨s, h1, h2, h3⟩, ⟨t, h4, h5, h6⟩, h7, h8, -⟩ := C70_compute μ hD
  exact ⟨r, h, by rw [h1, h2.antisymm h3], by rw [h4, h5.antisymm h6], h8.antisymm h7⟩

/-- A number that is only added with FITC. -/
def fitcOnly : Method → ℝ → ℝ
  | .fitc, x => x
  | _, _ => 0

/-- **C70.** What is stored at an index of the batch whose kernel matrix of the inducing points is positive definite, without Cholesky factors: the corrective variance is
`K_z + K_zx N⁻¹ K_xz`, and the weights of the posterior mean are its inverse times `K_zx N⁻¹ (y - m)`. -/
theorem C70_formulas (μ : Method) (hD : D.Sized n k bz u) {r : BOut} (hr : D.compute μ = some r) {d : List ℕ} (h : (D.Kz.mat n n d).PosDef) :
    let Kzx := D.Kzx.mat n k d
    let N := diagonal fun j : Fin k => D.noise.get (j :: d) + fitcOnly μ (D.kx.col k d 0 j - (Kzxᵀ * (D.Kz.mat n n d)⁻¹ * Kzx) j j)
    r.A.mat n n d = D.Kz.mat n n d + Kzx * N⁻¹ * Kzxᵀ ∧
      (D.Kz.mat n n d)⁻¹ *ᵥ (r.mu.col n d 0 - D.mz.col n d 0) = (r.A.mat n n d)⁻¹ *ᵥ ((Kzx * N⁻¹) *ᵥ (D.y.uprank.col k d 0 - D.mx.col k d 0)) := by
  intro Kzx N
  obtain ⟨_, e, -, -, -, -, hv⟩ := C70_compute μ hD
  cases hr.symm.trans e
  obtain ⟨h1, h2, -⟩ := hv d
  have hN : N = diagonal (sparseNoise μ (D.Kz.mat n n d) Kzx (D.kx.col k d 0) fun j => D.noise.get (j :: d)) := by
    refine congrArg diagonal (funext fun j => ?_)
    cases μ <;> simp [sparseNoise, Kzx, fitcOnly]
  have hA := h1.trans (subspaceA_eq μ Kzx (D.kx.col k d 0) (fun j : Fin k => D.noise.get (j :: d)) h)
  refine ⟨by rw [hA, hN]; rfl, ?_⟩
  have := muShift_eq μ Kzx (D.kx.col k d 0) (fun j : Fin k => D.noise.get (j :: d)) (fun j => D.y.uprank.col k d 0 j - D.mx.col k d 0 j) h
  rw [show r.mu.col n d 0 - D.mz.col n d 0 = muShift μ (D.Kz.mat n n d) Kzx (D.kx.col k d 0) (fun j : Fin k => D.noise.get (j :: d))
    fun j => D.y.uprank.col k d 0 j - D.mx.col k d 0 j from funext fun i => by rw [Pi.sub_apply, h2 i, add_sub_cancel_left], this, hA, hN]
  rfl

theorem logpdf_center (m : Fin k → ℝ) (V : Matrix (Fin k) (Fin k) ℝ) (y : Fin k → ℝ) : (⟨m, V⟩ : Normal k).logpdfFull y = (⟨0, V⟩ : Normal k).logpdfFull fun j => y j - m j := by
  unfold Normal.logpdfFull
  simp only [sub_zero]
  rfl

/-- **C70.** With VFE, the bound at every index of the batch is at most the log-density at this index, for any covariances of the data for which the inducing points and
the data have a joint covariance. -/
theorem C70_bound (hD : D.Sized n k bz u) {r : BOut} (hr : D.compute .vfe = some r) {d : List ℕ} (h : (D.Kz.mat n n d).PosDef) (hn : ∀ j : Fin k, 0 < D.noise.get (j :: d))
    {K : Matrix (Fin k) (Fin k) ℝ} (hk : ∀ j, D.kx.col k d 0 j = K j j) (hK : (K - (D.Kzx.mat n k d)ᵀ * (D.Kz.mat n n d)⁻¹ * D.Kzx.mat n k d).PosSemidef) :
    r.elbo.get d ≤ (⟨D.mx.col k d 0, K + diagonal fun j : Fin k => D.noise.get (j :: d)⟩ : Normal k).logpdfFull (D.y.uprank.col k d 0) := by
  obtain ⟨_, e, -, -, -, -, hv⟩ := C70_compute .vfe hD
  cases hr.symm.trans e
  rw [(hv d).2.2, logpdf_center]
  exact elboOf_le h hn hk hK

/-- **C70.** Where the inducing points are the data, the bound is the log-density, for all methods. -/
theorem C70_exact (μ : Method) (hD : D.Sized k k bz u) {r : BOut} (hr : D.compute μ = some r) {d : List ℕ} (h : (D.Kz.mat k k d).PosDef) (hn : ∀ j : Fin k, 0 < D.noise.get (j :: d))
    (hx : D.Kzx.mat k k d = D.Kz.mat k k d) (hk : ∀ j, D.kx.col k d 0 j = D.Kz.mat k k d j j) :
    r.elbo.get d = (⟨D.mx.col k d 0, D.Kz.mat k k d + diagonal fun j : Fin k => D.noise.get (j :: d)⟩ : Normal k).logpdfFull (D.y.uprank.col k d 0) := by
  obtain ⟨_, e, -, -, -, -, hv⟩ := C70_compute μ hD
  cases hr.symm.trans e
  rw [(hv d).2.2, logpdf_center, hx]
  exact elboOf_self h (fun j _ => hk j) hn

section Posterior
variable {mi mx Kij Kxi Kxj Kx noise y : Ten ℝ} {p q : ℕ}

/-- **C70.** Posteriors of batches with exact observations: means and kernels at `p` and `q` inputs are, for every index of the batch, those for the matrices at this index.
In particular, observations without batch dimensions can be combined with kernels that have some, and the other way around. -/
theorem C70_posterior (h1 : ∃ s, mi.shape = 1 :: p :: s ∧ Fits s u) (h2 : ∃ s, mx.shape = 1 :: k :: s ∧ Fits s u) (h3 : ∃ s, Kij.shape = q :: p :: s ∧ Fits s u)
    (h4 : ∃ s, Kxi.shape = p :: k :: s ∧ Fits s u) (h5 : ∃ s, Kxj.shape = q :: k :: s ∧ Fits s u) (h6 : ∃ s, Kx.shape = k :: k :: s ∧ Fits s u)
    (h7 : ∃ s, noise.shape = k :: k :: s ∧ Fits s u) (h8 : ∃ s, y.uprank.shape = 1 :: k :: s ∧ Fits s u) :
    ∃ m v, bPosterior mi mx Kij Kxi Kxj Kx noise y = some (m, v) ∧ (∃ s, m.shape = 1 :: p :: s ∧ Fits s u) ∧ (∃ s, v.shape = q :: p :: s ∧ Fits s u) ∧ ∀ d,
      m.col p d 0 = mi.col p d 0 + ((Kxi.mat k p d)ᵀ * (Kx.mat k k d + noise.mat k k d)⁻¹) *ᵥ (y.uprank.col k d 0 - mx.col k d 0) ∧
        v.mat p q d = Kij.mat p q d - (Kxi.mat k p d)ᵀ * (Kx.mat k k d + noise.mat k k d)⁻¹ * Kxj.mat k q d := by
  obtain ⟨K, e1, K2, -⟩ := (mats_of h6).zip (· + ·) (mats_of h7)
  obtain ⟨yb, e2, y2, -⟩ := (mats_of h8).zip (· - ·) (mats_of h2)
  obtain ⟨a, e3, a2⟩ := K2.iqf (mats_of h4) y2
  obtain ⟨m, e4, m2, -⟩ := (mats_of h1).zip (· + ·) a2
  obtain ⟨b, e5, b2⟩ := K2.iqf (mats_of h4) (mats_of h5)
  obtain ⟨v, e6, v2, -⟩ := (mats_of h3).zip (· - ·) b2
  refine ⟨m, v, ?_, ?_, ?_, fun d => ⟨?_, ?_⟩⟩
  · simp [bPosterior, bPostMean, bPostKernel, e1, e2, e3, e4, e5, e6]
  · obtain ⟨s, a, -, c, -⟩ := m2
    exact ⟨s, a, c⟩
  · obtain ⟨s, a, -, c, -⟩ := v2
    exact ⟨s, a, c⟩
  · obtain ⟨s, -, -, -, h⟩ := m2
    funext i
    exact congrFun (congrFun (h d) i) 0
  · obtain ⟨s, -, -, -, h⟩ := v2
    exact h d

variable {Kzi Kzj : Ten ℝ}

/-- **C70.** Posteriors of batches with inducing points: for every index of the batch at which the kernel matrix of the inducing points is positive definite, the correction of the
mean is `K_iz A⁻¹ K_zx N⁻¹ (y - m)` and that of the kernel is `K_iz (K_z⁻¹ - A⁻¹) K_zj`, where `A = K_z + K_zx N⁻¹ K_xz`. -/
theorem C70_sparse (μ : Method) (hD : D.Sized n k bz u) (h1 : ∃ s, mi.shape = 1 :: p :: s ∧ Fits s u) (h3 : ∃ s, Kij.shape = q :: p :: s ∧ Fits s u)
    (h4 : ∃ s, Kzi.shape = p :: n :: s ∧ Fits s u) (h5 : ∃ s, Kzj.shape = q :: n :: s ∧ Fits s u) :
    ∃ m v, D.posterior μ mi Kij Kzi Kzj = some (m, v) ∧ (∃ s, m.shape = 1 :: p :: s ∧ Fits s u) ∧ (∃ s, v.shape = q :: p :: s ∧ Fits s u) ∧ ∀ d, (D.Kz.mat n n d).PosDef →
      let Kz := D.Kz.mat n n d
      let Kzx := D.Kzx.mat n k d
      let N := diagonal fun j : Fin k => D.noise.get (j :: d) + fitcOnly μ (D.kx.col k d 0 j - (Kzxᵀ * Kz⁻¹ * Kzx) j j)
      let A := Kz + Kzx * N⁻¹ * Kzxᵀ
      m.col p d 0 = mi.col p d 0 + (Kzi.mat n p d)ᵀ *ᵥ (A⁻¹ *ᵥ ((Kzx * N⁻¹) *ᵥ (D.y.uprank.col k d 0 - D.mx.col k d 0))) ∧
        v.mat p q d = Kij.mat p q d - (Kzi.mat n p d)ᵀ * (Kz⁻¹ - A⁻¹) * Kzj.mat n q d := by
  obtain ⟨r, hr, ⟨s, sA, -, fA⟩, ⟨t, sm, -, fm⟩, -⟩ := C70_compute μ hD
  have hKz : Mats bz u D.Kz n n (D.Kz.mat n n) := ⟨bz, hD.Kz, .refl _, hD.fits, fun _ => rfl⟩
  obtain ⟨yb, e2, y2, -⟩ := (mats_of ⟨t, sm, fm⟩).zip (· - ·) (mats_of hD.mz)
  obtain ⟨a, e3, a2⟩ := hKz.iqf (mats_of h4) y2
  obtain ⟨m, e4, m2, -⟩ := (mats_of h1).zip (· + ·) a2
  obtain ⟨b, e5, b2⟩ := hKz.iqf (mats_of h4) (mats_of h5)
  obtain ⟨v, e6, v2, -⟩ := (mats_of h3).zip (· - ·) b2
  obtain ⟨c, e7, c2⟩ := (mats_of ⟨s, sA, fA⟩).iqf (mats_of h4) (mats_of h5)
  obtain ⟨w, e8, w2, -⟩ := v2.zip (· + ·) c2
  refine ⟨m, w, ?_, ?_, ?_, fun d hd => ?_⟩
  · simp [BData.posterior, bPostMean, bSparseKernel, bPostKernel, hr, e2, e3, e4, e5, e6, e7, e8]
  · obtain ⟨s, a, -, c, -⟩ := m2
    exact ⟨s, a, c⟩
  · obtain ⟨s, a, -, c, -⟩ := w2
    exact ⟨s, a, c⟩
  · intro Kz Kzx N A
    obtain ⟨hA, hm⟩ := C70_formulas μ hD hr hd
    have hA' : r.A.mat n n d = A := hA
    constructor
    · obtain ⟨s, -, -, -, h⟩ := m2
      have : m.col p d 0 = mi.col p d 0 + ((Kzi.mat n p d)ᵀ * (D.Kz.mat n n d)⁻¹) *ᵥ (r.mu.col n d 0 - D.mz.col n d 0) := by
        funext i
        exact congrFun (congrFun (h d) i) 0
      rw [this, ← mulVec_mulVec, hm, hA']
    · obtain ⟨s, -, -, -, h⟩ := w2
      have : w.mat p q d = Kij.mat p q d - (Kzi.mat n p d)ᵀ * (D.Kz.mat n n d)⁻¹ * Kzj.mat n q d + (Kzi.mat n p d)ᵀ * (r.A.mat n n d)⁻¹ * Kzj.mat n q d := h d
      rw [this, hA', Matrix.mul_sub, Matrix.sub_mul]
      abel

end Posterior

/-- Two values for one point, which is also the inducing point. Only the values have a batch dimension. -/
def two (a b : ℝ) : BData :=
  ⟨⟨[1, 1], fun _ => 1⟩, ⟨[1, 1], fun _ => 1⟩, ⟨[1, 1], fun _ => 1⟩, ⟨[1], fun _ => 1⟩, ⟨[1, 1], fun _ => 0⟩, ⟨[1, 1], fun _ => 0⟩,
    ⟨[1, 1, 2], fun i => if i.getD 2 0 = 0 then a else b⟩⟩

theorem two_sized (a b : ℝ) : (two a b).Sized 1 1 [] [2] :=
  ⟨rfl, rfl, ⟨_, rfl, rfl⟩, ⟨_, rfl, rfl⟩, ⟨_, rfl, rfl⟩, ⟨_, rfl, rfl⟩, ⟨_, rfl, rfl⟩, ⟨_, rfl, rfl⟩⟩

/-- C70 for two values: posterior means are half of the values, and bounds are log-densities of N(0, 2). -/
example (a b : ℝ) (μ : Method) : ∃ r, (two a b).compute μ = some r ∧ r.mu.get [0, 0, 0] = a / 2 ∧ r.mu.get [0, 0, 1] = b / 2 ∧
    r.elbo.get [0] = (⟨fun _ => 0, diagonal fun _ => 2⟩ : Normal 1).logpdfFull (fun _ => a) ∧
    r.elbo.get [1] = (⟨fun _ => 0, diagonal fun _ => 2⟩ : Normal 1).logpdfFull fun _ => b := by
  obtain ⟨r, hr, -⟩ := C70_compute μ (two_sized a b)
  have hK : ∀ d, (two a b).Kz.mat 1 1 d = 1 := fun d => by
    funext i j
    rw [Subsingleton.elim i j, Matrix.one_apply_eq]
    rfl
  have hx : ∀ d, (two a b).Kzx.mat 1 1 d = 1 := hK
  have hp : ∀ d, ((two a b).Kz.mat 1 1 d).PosDef := fun d => by rw [hK]; exact PosDef.one
  have h2 : (1 + diagonal fun _ => 1 : Matrix (Fin 1) (Fin 1) ℝ) = diagonal fun _ => 2 := by
    rw [← diagonal_one, diagonal_add]
    norm_num
  have hv : ∀ d, (two a b).y.uprank.col 1 d 0 = fun _ => if d.getD 0 0 = 0 then a else b := fun d => by
    funext i
    simp [two, uprank, Ten.col, Ten.get]
    cases d <;> rfl
  have hm : ∀ d, r.mu.get (0 :: 0 :: d) = (if d.getD 0 0 = 0 then a else b) / 2 := fun d => by
    obtain ⟨e1, e2⟩ := C70_formulas μ (two_sized a b) hr (hp d)
    rw [hx, hK] at e1 e2
    have hN : (diagonal fun j : Fin 1 => (two a b).noise.get (j :: d) + fitcOnly μ ((two a b).kx.col 1 d 0 j - (1ᵀ * 1⁻¹ * 1 : Matrix (Fin 1) (Fin 1) ℝ) j j)) = 1 := by
      rw [← diagonal_one]
      refine congrArg diagonal (funext fun j => ?_)
      rw [show (two a b).kx.col 1 d 0 j = 1 from rfl, show (two a b).noise.get ((j : ℕ) :: d) = 1 from rfl]
      cases μ <;> simp [fitcOnly]
    rw [hN] at e1 e2
    rw [e1, hv] at e2
    have e3 : (1 + 1 * 1⁻¹ * 1ᵀ : Matrix (Fin 1) (Fin 1) ℝ)⁻¹ = diagonal fun _ => 1 / 2 := by
      refine inv_eq_left_inv ?_
      rw [inv_one, mul_one, transpose_one, mul_one, show (1 + 1 : Matrix (Fin 1) (Fin 1) ℝ) = diagonal fun _ => 2 by rw [← h2, diagonal_one], diagonal_mul_diagonal, ← diagonal_one]
      norm_num
    rw [e3] at e2
    have := congrFun e2 0
    have hz : (two a b).mz.col 1 d 0 0 = 0 := rfl
    have hy : (two a b).mx.col 1 d 0 0 = 0 := rfl
    simp only [inv_one, one_mulVec, mul_one, Pi.sub_apply, hz, sub_zero, mulVec_diagonal, hy] at this
    rw [show r.mu.get (0 :: 0 :: d) = r.mu.col 1 d 0 0 from rfl, this]
    ring
  have hl : ∀ d, r.elbo.get d = (⟨fun _ => 0, diagonal fun _ => 2⟩ : Normal 1).logpdfFull fun _ => if d.getD 0 0 = 0 then a else b := fun d => by
    rw [C70_exact μ (two_sized a b) hr (hp d) (fun _ => one_pos) rfl fun _ => rfl, hv, hK]
    exact congrArg (fun V => (⟨fun _ => 0, V⟩ : Normal 1).logpdfFull _) h2
  exact ⟨r, hr, hm [0], hm [1], hl [0], hl [1]⟩

end BData

section Values
variable {α : Type} {c n : ℕ} {bs : List ℕ}

theorem cat_some {a b : Ten α} {r r' : ℕ} (ha : a.shape = c :: r :: bs) (hb : b.shape = c :: r' :: bs) : ∃ p, cat a b = some p ∧ p.shape = c :: (r + r') :: bs ∧
    (∀ j, ∀ i < r, ∀ d, p.e (j :: i :: d) = a.e (j :: i :: d)) ∧ ∀ j i d, p.e (j :: (r + i) :: d) = b.e (j :: i :: d) := by
  refine ⟨_, by simp only [cat, ha, hb, and_self, if_true]; rfl, rfl, fun j i hi d => ?_, fun j i d => ?_⟩
  · exact if_pos hi
  · have : ¬(r + i < r) := by omega
    refine (if_neg this).trans ?_
    simp

/-- The sums of the numbers of rows before each array. -/
def start (rs : List ℕ) (j : ℕ) : ℕ := (rs.take j).sum

/-- **C70.** The values of several FDDs, all with the same batch dimensions, are concatenated along the rows: the rows of the array `j` follow those of the arrays before it. -/
theorem C70_combine : ∀ {ys : List (Ten α)} {rs : List ℕ}, ys ≠ [] → List.Forall₂ (fun (y : Ten α) r => y.uprank.shape = c :: r :: bs) ys rs →
    ∃ p, combineValues ys = some p ∧ p.shape = c :: rs.sum :: bs ∧
      ∀ (j : ℕ) (y : Ten α) (r : ℕ), ys[j]? = some y → rs[j]? = some r → ∀ l, ∀ i < r, ∀ d, p.e (l :: (start rs j + i) :: d) = y.uprank.e (l :: i :: d)
  | [], _, h, _ => (h rfl).elim
  | [y], _, _, .cons (b := r) h .nil => by
    refine ⟨y.uprank, by simp [combineValues, concat, Ten.rank, h], by simpa using h, fun j y' r' h1 h2 l i hi d => ?_⟩
    cases j with
    | zero =>
      cases h1
      simp [start]
    | succ j => simp at h1
  | y :: y' :: ys, _, _, .cons (b := r) (l₂ := rs) h hs => by
    obtain ⟨q, q1, q2, q3⟩ := C70_combine (ys := y' :: ys) (by simp) hs
    obtain ⟨p, p1, p2, p3, p4⟩ := cat_some h q2
    refine ⟨p, ?_, by rw [p2, List.sum_cons], fun j y' r' h1 h2 l i hi d => ?_⟩
    · exact Option.bind_eq_some_iff.2 ⟨q, q1, p1⟩
    cases j with
    | zero =>
      cases h1
      cases h2
      rw [start, List.take_zero, List.sum_nil, zero_add, p3 l i hi]
    | succ j =>
      rw [show start (r :: rs) (j + 1) + i = r + (start rs j + i) by simp [start]; omega, p4]
      exact q3 j y' r' h1 h2 l i hi d

/-- **C70.** Values whose batch dimensions differ are not broadcast: `combine` raises. -/
theorem C70_combine_raises {y y' : Ten α} {r r' : ℕ} {bs' : List ℕ} (h : y.uprank.shape = c :: r :: bs) (h' : y'.uprank.shape = c :: r' :: bs') (hb : bs ≠ bs') :
    combineValues [y, y'] = none := by
  simp [combineValues, concat, Ten.rank, h', cat, h, hb]

/-- **C70.** Samples of several FDDs: if there are enough rows, the sample `j` has the rows that follow those of the samples before it, for all indices of the batch. -/
theorem C70_unpack {t : Ten α} (ht : t.shape = c :: n :: bs) : ∀ {ls : List ℕ} {i : ℕ}, i + ls.sum ≤ n → ∃ ts, unpack t i ls = some ts ∧ ts.length = ls.length ∧
    ∀ (j : ℕ) (s : Ten α) (l : ℕ), ts[j]? = some s → ls[j]? = some l → s.shape = c :: l :: bs ∧ ∀ k r d, s.e (k :: r :: d) = t.e (k :: (i + start ls j + r) :: d)
  | [], _, _ => ⟨[], rfl, rfl, fun j s l h => by simp at h⟩
  | l :: ls, i, h => by
    rw [List.sum_cons] at h
    obtain ⟨ts, h1, h2, h3⟩ := C70_unpack ht (ls := ls) (i := i + l) (by omega)
    refine ⟨_ :: ts, Option.bind_eq_some_iff.2 ⟨_, by rw [rows, ht], Option.bind_eq_some_iff.2 ⟨ts, h1, rfl⟩⟩, by simp [h2], fun j s l' e1 e2 => ?_⟩
    cases j with
    | zero =>
      cases e1
      cases e2
      refine ⟨?_, fun k r d => ?_⟩
      · show c :: (min (i + l) n - i) :: bs = _
        rw [show min (i + l) n - i = l by omega]
      · simp [start]
    | succ j =>
      obtain ⟨e3, e4⟩ := h3 j s l' e1 e2
      refine ⟨e3, fun k r d => ?_⟩
      rw [e4, show i + l + start ls j + r = i + start (l :: ls) (j + 1) + r by simp [start]; omega]

/-- **C70.** What is concatenated is taken apart again. -/
theorem C70_roundtrip {ys : List (Ten α)} {rs : List ℕ} (h : ys ≠ []) (hs : List.Forall₂ (fun (y : Ten α) r => y.uprank.shape = c :: r :: bs) ys rs) :
    ∃ p ts, combineValues ys = some p ∧ unpack p 0 rs = some ts ∧ ts.length = ys.length ∧
      ∀ (j : ℕ) (y s : Ten α), ys[j]? = some y → ts[j]? = some s → s.shape = y.uprank.shape ∧ ∀ i, List.Forall₂ (· < ·) i s.shape → s.e i = y.uprank.e i := by
  obtain ⟨p, p1, p2, p3⟩ := C70_combine h hs
  obtain ⟨ts, t1, t2, t3⟩ := C70_unpack p2 (ls := rs) (i := 0) (by omega)
  refine ⟨p, ts, p1, t1, t2.trans hs.length_eq.symm, fun j y s e1 e2 => ?_⟩
  obtain ⟨hj, rfl⟩ := List.getElem?_eq_some_iff.1 e1
  have hr : rs[j]? = some (rs[j]'(hs.length_eq ▸ hj)) := List.getElem?_eq_getElem _
  obtain ⟨u1, u2⟩ := t3 j s _ e2 hr
  have hy := List.forall₂_iff_get.1 hs |>.2 j hj (hs.length_eq ▸ hj)
  refine ⟨u1.trans hy.symm, fun i hi => ?_⟩
  rw [u1] at hi
  cases hi with
  | cons a hi =>
    cases hi with
    | cons b hi => rw [u2, Nat.zero_add, p3 j _ _ e1 hr _ _ b]

/-- C70 for values: two batches of two columns, with one row and with two rows. -/
example (f g : List ℕ → ℝ) : ∃ p ts, combineValues [⟨[1, 1, 2], f⟩, ⟨[1, 2, 2], g⟩] = some p ∧ p.shape = [1, 3, 2] ∧ unpack p 0 [1, 2] = some ts ∧
    p.e [0, 0, 1] = f [0, 0, 1] ∧ p.e [0, 2, 1] = g [0, 1, 1] := by
  have hs : List.Forall₂ (fun (y : Ten ℝ) r => y.uprank.shape = 1 :: r :: [2]) [⟨[1, 1, 2], f⟩, ⟨[1, 2, 2], g⟩] [1, 2] := .cons rfl (.cons rfl .nil)
  obtain ⟨p, p1, p2, p3⟩ := C70_combine (by simp) hs
  obtain ⟨ts, t1, -⟩ := C70_unpack p2 (ls := [1, 2]) (i := 0) (by simp)
  exact ⟨p, ts, p1, p2, t1, p3 0 _ _ rfl rfl 0 0 (by simp) [1], p3 1 _ _ rfl rfl 0 1 (by simp) [1]⟩

end Values

end Stheno
