import Verif.SoundTup

/-!
# Evaluation without a bound on the recursion

`RunK lm lk k x y A` says that `pairwise(k, x, y)` returns `A`, and so on. The rules below say how evaluation
returns for each kind of expression.
-/

namespace Stheno

open Matrix

section
variable (lm : MId → PId → Option MExpr) (lk : MId → PId → PId → Option KExpr)

/-- `pairwise(k, x, y)` returns `A`. -/
def RunK (k : KExpr) (x y : Input) (A : Mat) : Prop := ∃ n, (ev lm lk n).K k x y = some A

/-- `elwise(k, x, y)` returns `u`. -/
def RunD (k : KExpr) (x y : Input) (u : List ℝ) : Prop := ∃ n, (ev lm lk n).D k x y = some u

/-- `a(x)` returns `v` for a mean `a`. -/
def RunM (a : MExpr) (x : Input) (v : List ℝ) : Prop := ∃ n, (ev lm lk n).M a x = some v

/-- `f(x)` returns `v`. -/
def RunF (f : Fn) (x : Input) (v : List ℝ) : Prop := ∃ n, stepFn lm (ev lm lk n) f x = some v

end

variable {lm : MId → PId → Option MExpr} {lk : MId → PId → PId → Option KExpr} {x y : Input}

theorem RunK.le {k : KExpr} {A : Mat} (h : RunK lm lk k x y A) :
    ∃ n, ∀ n', n ≤ n' → (ev lm lk n').K k x y = some A := by
  obtain ⟨n, h⟩ := h
  exact ⟨n, fun n' hn => (ev_le hn).K _ _ _ _ h⟩

theorem RunD.le {k : KExpr} {u : List ℝ} (h : RunD lm lk k x y u) :
    ∃ n, ∀ n', n ≤ n' → (ev lm lk n').D k x y = some u := by
  obtain ⟨n, h⟩ := h
  exact ⟨n, fun n' hn => (ev_le hn).D _ _ _ _ h⟩

theorem RunM.le {a : MExpr} {v : List ℝ} (h : RunM lm lk a x v) :
    ∃ n, ∀ n', n ≤ n' → (ev lm lk n').M a x = some v := by
  obtain ⟨n, h⟩ := h
  exact ⟨n, fun n' hn => (ev_le hn).M _ _ _ h⟩

theorem RunF.le {f : Fn} {v : List ℝ} (h : RunF lm lk f x v) :
    ∃ n, ∀ n', n ≤ n' → stepFn lm (ev lm lk n') f x = some v := by
  obtain ⟨n, h⟩ := h
  exact ⟨n, fun n' hn => stepFn_mono (fun _ _ _ h => h) (ev_le hn) f x _ h⟩

theorem RunK.unique {k : KExpr} {A B : Mat} (h : RunK lm lk k x y A) (h' : RunK lm lk k x y B) : A = B := by
  obtain ⟨n, h⟩ := h.le
  obtain ⟨n', h'⟩ := h'.le
  have h1 := h (max n n') (le_max_left _ _)
  have h2 := h' (max n n') (le_max_right _ _)
  rw [h1] at h2; exact Option.some.inj h2

theorem RunD.unique {k : KExpr} {u v : List ℝ} (h : RunD lm lk k x y u) (h' : RunD lm lk k x y v) : u = v := by
  obtain ⟨n, h⟩ := h.le
  obtain ⟨n', h'⟩ := h'.le
  have h1 := h (max n n') (le_max_left _ _)
  have h2 := h' (max n n') (le_max_right _ _)
  rw [h1] at h2; exact Option.some.inj h2

theorem RunM.unique {a : MExpr} {u v : List ℝ} (h : RunM lm lk a x u) (h' : RunM lm lk a x v) : u = v := by
  obtain ⟨n, h⟩ := h.le
  obtain ⟨n', h'⟩ := h'.le
  have h1 := h (max n n') (le_max_left _ _)
  have h2 := h' (max n n') (le_max_right _ _)
  rw [h1] at h2; exact Option.some.inj h2

/-- Many evaluations at a common depth. -/
theorem common_depth {α β : Type} {P : ℕ → α → β → Prop} (mono : ∀ n n', n ≤ n' → ∀ a b, P n a b → P n' a b)
    (g : α → β) (l : List α) (h : ∀ a ∈ l, ∃ n, P n a (g a)) : ∃ n, ∀ a ∈ l, P n a (g a) := by
  induction l with
  | nil => exact ⟨0, fun a ha => by simp at ha⟩
  | cons a l ih =>
    obtain ⟨n, hn⟩ := ih fun b hb => h b (by simp [hb])
    obtain ⟨n', hn'⟩ := h a (by simp)
    refine ⟨max n n', fun b hb => ?_⟩
    rcases List.mem_cons.1 hb with rfl | hb
    · exact mono _ _ (le_max_right _ _) _ _ hn'
    · exact mono _ _ (le_max_left _ _) _ _ (hn b hb)

/-! ## Functions -/

theorem RunF.user {f : Pt → ℝ} {xs : List Pt} : RunF lm lk (.user f) (.num xs) (xs.map f) := ⟨0, rfl⟩
theorem RunF.const {c : ℝ} : RunF lm lk (.const c) x (List.replicate (numElements x) c) := ⟨0, rfl⟩
theorem RunF.meanOf {m : MId} {p : PId} {a : MExpr} {v : List ℝ} (h : lm m p = some a) (hv : RunM lm lk a x v) :
    RunF lm lk (.meanOf m p) x v := by
  obtain ⟨n, hv⟩ := hv
  exact ⟨n, by rw [stepFn, h]; exact hv⟩

/-! ## Kernels -/

section
variable (hx : x.IsAtom) (hy : y.IsAtom)
include hx hy

theorem RunK.intro {k : KExpr} {A : Mat} (h : ∃ n, stepKAtom lm lk (ev lm lk n) k x y = some A) :
    RunK lm lk k x y A := by
  obtain ⟨n, h⟩ := h
  exact ⟨n + 1, by rw [ev_K_atom hx hy, h]⟩

theorem RunD.intro {k : KExpr} {u : List ℝ} (h : ∃ n, stepDAtom lm lk (ev lm lk n) k x y = some u) :
    RunD lm lk k x y u := by
  obtain ⟨n, h⟩ := h
  exact ⟨n + 1, by rw [ev_D_atom hx hy, h]⟩

theorem RunK.zero : RunK lm lk .zero x y ⟨numElements x, numElements y, fun _ _ => 0⟩ := RunK.intro hx hy ⟨0, rfl⟩

theorem RunD.zero (h : numElements x = numElements y) :
    RunD lm lk .zero x y (List.replicate (numElements x) 0) := RunD.intro hx hy ⟨0, if_pos h⟩

theorem RunK.adk {k : KExpr} {A : Mat} (h : RunK lm lk k x y A) : RunK lm lk (.adk k) x y A := RunK.intro hx hy h
theorem RunD.adk {k : KExpr} {u : List ℝ} (h : RunD lm lk k x y u) : RunD lm lk (.adk k) x y u := RunD.intro hx hy h

theorem RunK.add {a b : KExpr} {A B M : Mat} (ha : RunK lm lk a x y A) (hb : RunK lm lk b x y B)
    (h : A.add B = some M) : RunK lm lk (.add a b) x y M := by
  obtain ⟨n, ha⟩ := ha.le
  obtain ⟨n', hb⟩ := hb.le
  refine RunK.intro hx hy ⟨max n n', ?_⟩
  simp only [stepKAtom, ha _ (le_max_left _ _), hb _ (le_max_right _ _)]
  exact h

theorem RunD.add {a b : KExpr} {u v w : List ℝ} (ha : RunD lm lk a x y u) (hb : RunD lm lk b x y v)
    (h : zipCol (· + ·) u v = some w) : RunD lm lk (.add a b) x y w := by
  obtain ⟨n, ha⟩ := ha.le
  obtain ⟨n', hb⟩ := hb.le
  refine RunD.intro hx hy ⟨max n n', ?_⟩
  simp only [stepDAtom, ha _ (le_max_left _ _), hb _ (le_max_right _ _)]
  exact h

theorem RunK.mul {a b : KExpr} {A B M : Mat} (ha : RunK lm lk a x y A) (hb : RunK lm lk b x y B)
    (h : A.mul B = some M) : RunK lm lk (.mul a b) x y M := by
  obtain ⟨n, ha⟩ := ha.le
  obtain ⟨n', hb⟩ := hb.le
  refine RunK.intro hx hy ⟨max n n', ?_⟩
  simp only [stepKAtom, ha _ (le_max_left _ _), hb _ (le_max_right _ _)]
  exact h

theorem RunD.mul {a b : KExpr} {u v w : List ℝ} (ha : RunD lm lk a x y u) (hb : RunD lm lk b x y v)
    (h : zipCol (· * ·) u v = some w) : RunD lm lk (.mul a b) x y w := by
  obtain ⟨n, ha⟩ := ha.le
  obtain ⟨n', hb⟩ := hb.le
  refine RunD.intro hx hy ⟨max n n', ?_⟩
  simp only [stepDAtom, ha _ (le_max_left _ _), hb _ (le_max_right _ _)]
  exact h

theorem RunK.scale {k : KExpr} {A : Mat} (c : ℝ) (h : RunK lm lk k x y A) :
    RunK lm lk (.scale c k) x y (A.smul c) := by
  obtain ⟨n, h⟩ := h
  exact RunK.intro hx hy ⟨n, by rw [stepKAtom, h]; rfl⟩

theorem RunD.scale {k : KExpr} {u : List ℝ} (c : ℝ) (h : RunD lm lk k x y u) :
    RunD lm lk (.scale c k) x y (u.map (c * ·)) := by
  obtain ⟨n, h⟩ := h
  exact RunD.intro hx hy ⟨n, by rw [stepDAtom, h]; rfl⟩

theorem RunK.rev {k : KExpr} {A : Mat} (h : RunK lm lk k y x A) : RunK lm lk (.rev k) x y A.tr := by
  obtain ⟨n, h⟩ := h
  exact RunK.intro hx hy ⟨n, by rw [stepKAtom, h]; rfl⟩

theorem RunD.rev {k : KExpr} {u : List ℝ} (h : RunD lm lk k y x u) : RunD lm lk (.rev k) x y u := by
  obtain ⟨n, h⟩ := h
  exact RunD.intro hx hy ⟨n, by rw [stepDAtom, h]⟩

theorem RunK.pre {t u : InTr} {k : KExpr} {x' y' : Input} {A : Mat} (ht : t.apply x = some x')
    (hu : u.apply y = some y') (h : RunK lm lk k x' y' A) : RunK lm lk (.pre t u k) x y A := by
  obtain ⟨n, h⟩ := h
  exact RunK.intro hx hy ⟨n, by rw [stepKAtom, ht, hu]; exact h⟩

theorem RunD.pre {t u : InTr} {k : KExpr} {x' y' : Input} {v : List ℝ} (ht : t.apply x = some x')
    (hu : u.apply y = some y') (h : RunD lm lk k x' y' v) : RunD lm lk (.pre t u k) x y v := by
  obtain ⟨n, h⟩ := h
  exact RunD.intro hx hy ⟨n, by rw [stepDAtom, ht, hu]; exact h⟩

theorem RunK.tprod {f g : Fn} {u v : List ℝ} (hf : RunF lm lk f x u) (hg : RunF lm lk g y v) :
    RunK lm lk (.tprod f g) x y ⟨u.length, v.length, fun i j => u.getD i 0 * v.getD j 0⟩ := by
  obtain ⟨n, hf⟩ := hf.le
  obtain ⟨n', hg⟩ := hg.le
  refine RunK.intro hx hy ⟨max n n', ?_⟩
  simp only [stepKAtom, hf _ (le_max_left _ _), hg _ (le_max_right _ _)]
  rfl

theorem RunD.tprod {f g : Fn} {u v w : List ℝ} (hf : RunF lm lk f x u) (hg : RunF lm lk g y v)
    (h : zipCol (· * ·) u v = some w) : RunD lm lk (.tprod f g) x y w := by
  obtain ⟨n, hf⟩ := hf.le
  obtain ⟨n', hg⟩ := hg.le
  refine RunD.intro hx hy ⟨max n n', ?_⟩
  simp only [stepDAtom, hf _ (le_max_left _ _), hg _ (le_max_right _ _)]
  exact h

omit hx hy in
/-- `K_z` of an exact observation. -/
theorem stepKz_of {r : Ev} {kzz : KExpr} {z : Input} {noise A K : Mat} (hA : r.K kzz z z = some A)
    (hK : A.add noise = some K) (hs : K.r = K.c) (hp : (K.sq K.r).PosDef) : stepKz r kzz z noise = some K := by
  unfold stepKz
  rw [hA]
  show (A.add noise >>= _) = _
  rw [hK]
  exact if_pos ⟨hs, hp⟩

theorem RunK.post {kij kzi kzj kzz : KExpr} {z : Input} {noise A Z K B C Q M : Mat} (hA : RunK lm lk kij x y A)
    (hZ : RunK lm lk kzz z z Z) (hK : Z.add noise = some K) (hs : K.r = K.c) (hp : (K.sq K.r).PosDef)
    (hB : RunK lm lk kzi z x B) (hC : RunK lm lk kzj z y C) (hQ : Mat.quad (K.sq K.r)⁻¹ B C = some Q)
    (hM : A.sub Q = some M) : RunK lm lk (.post kij kzi kzj z kzz noise) x y M := by
  obtain ⟨n1, hA⟩ := hA.le
  obtain ⟨n2, hZ⟩ := hZ.le
  obtain ⟨n3, hB⟩ := hB.le
  obtain ⟨n4, hC⟩ := hC.le
  refine RunK.intro hx hy ⟨n1 + n2 + n3 + n4, ?_⟩
  simp only [stepKAtom, hA _ (by omega : n1 ≤ n1 + n2 + n3 + n4), hB _ (by omega : n3 ≤ n1 + n2 + n3 + n4),
    hC _ (by omega : n4 ≤ n1 + n2 + n3 + n4),
    stepKz_of (hZ _ (by omega : n2 ≤ n1 + n2 + n3 + n4)) hK hs hp]
  show (Mat.quad (K.sq K.r)⁻¹ B C >>= A.sub) = _
  rw [hQ]; exact hM

theorem RunD.post {kij kzi kzj kzz : KExpr} {z : Input} {noise Z K B C : Mat} {u q w : List ℝ}
    (hA : RunD lm lk kij x y u)
    (hZ : RunK lm lk kzz z z Z) (hK : Z.add noise = some K) (hs : K.r = K.c) (hp : (K.sq K.r).PosDef)
    (hB : RunK lm lk kzi z x B) (hC : RunK lm lk kzj z y C) (hQ : Mat.quadDiag (K.sq K.r)⁻¹ B C = some q)
    (hM : zipCol (· - ·) u q = some w) : RunD lm lk (.post kij kzi kzj z kzz noise) x y w := by
  obtain ⟨n1, hA⟩ := hA.le
  obtain ⟨n2, hZ⟩ := hZ.le
  obtain ⟨n3, hB⟩ := hB.le
  obtain ⟨n4, hC⟩ := hC.le
  refine RunD.intro hx hy ⟨n1 + n2 + n3 + n4, ?_⟩
  simp only [stepDAtom, hA _ (by omega : n1 ≤ n1 + n2 + n3 + n4), hB _ (by omega : n3 ≤ n1 + n2 + n3 + n4),
    hC _ (by omega : n4 ≤ n1 + n2 + n3 + n4),
    stepKz_of (hZ _ (by omega : n2 ≤ n1 + n2 + n3 + n4)) hK hs hp]
  show (Mat.quadDiag (K.sq K.r)⁻¹ B C >>= zipCol (· - ·) u) = _
  rw [hQ]; exact hM

end

theorem RunK.prim {k : Pt → Pt → ℝ} {xs ys : List Pt} : RunK lm lk (.prim k) (.num xs) (.num ys)
    ⟨xs.length, ys.length, fun i j => k (xs.getD i []) (ys.getD j [])⟩ := ⟨1, rfl⟩

theorem RunD.prim {k : Pt → Pt → ℝ} {xs ys : List Pt} (h : xs.length = ys.length) :
    RunD lm lk (.prim k) (.num xs) (.num ys) (List.zipWith k xs ys) := ⟨1, if_pos h⟩

theorem RunK.mok {m : MId} {ps : List PId} {p q : PId} {k : KExpr} {A : Mat} (hk : lk m p q = some k)
    (h : RunK lm lk k x y A) : RunK lm lk (.mok m ps) (.fdd p x) (.fdd q y) A := by
  obtain ⟨n, h⟩ := h
  refine RunK.intro (x := .fdd p x) (y := .fdd q y) trivial trivial ⟨n, ?_⟩
  rw [stepKAtom, hk]; exact h

theorem RunD.mok {m : MId} {ps : List PId} {p q : PId} {k : KExpr} {u : List ℝ} (hk : lk m p q = some k)
    (h : RunD lm lk k x y u) : RunD lm lk (.mok m ps) (.fdd p x) (.fdd q y) u := by
  obtain ⟨n, h⟩ := h
  refine RunD.intro (x := .fdd p x) (y := .fdd q y) trivial trivial ⟨n, ?_⟩
  rw [stepDAtom, hk]; exact h

/-! ### Tuples -/

theorem mapM_of {α β : Type} {f : α → Option β} {g : α → β} {l : List α} (h : ∀ a ∈ l, f a = some (g a)) :
    l.mapM f = some (l.map g) := by
  induction l with
  | nil => rfl
  | cons a l ih =>
    rw [List.mapM_cons, h a (by simp), ih fun b hb => h b (by simp [hb])]
    rfl

/-- Blocks at tuples. -/
theorem RunK.tupK {k : KExpr} {xs ys : List Input} {G : Input → Input → Mat} {R : Input → Mat} {M : Mat}
    (h : ∀ x ∈ xs, ∀ y ∈ ys, RunK lm lk k x y (G x y)) (hR : ∀ x ∈ xs, Mat.hcatL (ys.map (G x)) = some (R x))
    (hM : Mat.vcatL (xs.map R) = some M) : ∃ n, Stheno.tupK (ev lm lk n) k xs ys = some M := by
  have step : ∀ x ∈ xs, ∃ n, ∀ y ∈ ys, (ev lm lk n).K k x y = some (G x y) := fun x hx =>
    common_depth (P := fun n y B => (ev lm lk n).K k x y = some B)
      (fun n n' hn y B hB => (ev_le hn).K _ _ _ _ hB) (G x) ys (h x hx)
  obtain ⟨n, hn⟩ := common_depth (P := fun n x (_ : Unit) => ∀ y ∈ ys, (ev lm lk n).K k x y = some (G x y))
    (fun n n' hn x _ hx y hy => (ev_le hn).K _ _ _ _ (hx y hy)) (fun _ => ()) xs step
  refine ⟨n, ?_⟩
  unfold Stheno.tupK
  have : (xs.mapM fun x => do
      let row ← ys.mapM fun y => (ev lm lk n).K k x y
      Mat.hcatL row) = some (xs.map R) := by
    refine mapM_of fun x hx => ?_
    rw [mapM_of (g := G x) (hn x hx)]
    exact hR x hx
  rw [this]
  exact hM

theorem RunK.tup_tup {k : KExpr} {xs ys : List Input} {M : Mat}
    (h : ∃ n, Stheno.tupK (ev lm lk n) k xs ys = some M) : RunK lm lk k (.tup xs) (.tup ys) M := by
  obtain ⟨n, h⟩ := h
  exact ⟨n + 1, h⟩

theorem RunK.tup_atom {k : KExpr} {xs : List Input} (hy : y.IsAtom) {M : Mat}
    (h : ∃ n, Stheno.tupK (ev lm lk n) k xs [y] = some M) : RunK lm lk k (.tup xs) y M := by
  obtain ⟨n, h⟩ := h
  refine ⟨n + 1, ?_⟩
  cases y with
  | num ys => exact h
  | fdd q y => exact h
  | tup => exact hy.elim

theorem RunK.atom_tup {k : KExpr} {ys : List Input} (hx : x.IsAtom) {M : Mat}
    (h : ∃ n, Stheno.tupK (ev lm lk n) k [x] ys = some M) : RunK lm lk k x (.tup ys) M := by
  obtain ⟨n, h⟩ := h
  refine ⟨n + 1, ?_⟩
  cases x with
  | num xs => exact h
  | fdd p x => exact h
  | tup => exact hx.elim

/-! ## Means -/

theorem RunM.intro {a : MExpr} {v : List ℝ} (h : ∃ n, stepM lm (ev lm lk n) a x = some v) : RunM lm lk a x v := by
  obtain ⟨n, h⟩ := h
  exact ⟨n + 1, h⟩

theorem RunM.zero : RunM lm lk .zero x (List.replicate (numElements x) 0) := ⟨1, rfl⟩

theorem RunM.fn {f : Fn} {v : List ℝ} (h : RunF lm lk f x v) : RunM lm lk (.fn f) x v := RunM.intro h

theorem RunM.add {a b : MExpr} {u v w : List ℝ} (ha : RunM lm lk a x u) (hb : RunM lm lk b x v)
    (h : zipCol (· + ·) u v = some w) : RunM lm lk (.add a b) x w := by
  obtain ⟨n, ha⟩ := ha.le
  obtain ⟨n', hb⟩ := hb.le
  refine RunM.intro ⟨max n n', ?_⟩
  simp only [stepM, ha _ (le_max_left _ _), hb _ (le_max_right _ _)]
  exact h

theorem RunM.mul {a b : MExpr} {u v w : List ℝ} (ha : RunM lm lk a x u) (hb : RunM lm lk b x v)
    (h : zipCol (· * ·) u v = some w) : RunM lm lk (.mul a b) x w := by
  obtain ⟨n, ha⟩ := ha.le
  obtain ⟨n', hb⟩ := hb.le
  refine RunM.intro ⟨max n n', ?_⟩
  simp only [stepM, ha _ (le_max_left _ _), hb _ (le_max_right _ _)]
  exact h

theorem RunM.scale {a : MExpr} {v : List ℝ} (c : ℝ) (h : RunM lm lk a x v) :
    RunM lm lk (.scale c a) x (v.map (c * ·)) := by
  obtain ⟨n, h⟩ := h
  exact RunM.intro ⟨n, by rw [stepM, h]; rfl⟩

theorem RunM.pre {t : InTr} {a : MExpr} {x' : Input} {v : List ℝ} (ht : t.apply x = some x')
    (h : RunM lm lk a x' v) : RunM lm lk (.pre t a) x v := by
  obtain ⟨n, h⟩ := h
  exact RunM.intro ⟨n, by rw [stepM, ht]; exact h⟩

theorem RunM.mom {m : MId} {ps : List PId} {p : PId} {a : MExpr} {v : List ℝ} (ha : lm m p = some a)
    (h : RunM lm lk a x v) : RunM lm lk (.mom m ps) (.fdd p x) v := by
  obtain ⟨n, h⟩ := h
  exact RunM.intro ⟨n, by rw [stepM, ha]; exact h⟩

theorem RunM.mom_tup {m : MId} {ps : List PId} {xs : List Input} {g : Input → List ℝ} (h0 : xs ≠ [])
    (h : ∀ x ∈ xs, RunM lm lk (.mom m ps) x (g x)) : RunM lm lk (.mom m ps) (.tup xs) (xs.map g).flatten := by
  obtain ⟨n, hn⟩ := common_depth (P := fun n x v => (ev lm lk n).M (.mom m ps) x = some v)
    (fun n n' hn y B hB => (ev_le hn).M _ _ _ hB) g xs h
  refine RunM.intro ⟨n, ?_⟩
  show (if xs = [] then none else _) = _
  rw [if_neg h0, mapM_of hn]
  rfl

theorem RunM.post {mi mz : MExpr} {kzi kzz : KExpr} {z : Input} {noise Z K B : Mat} {y v u q w : List ℝ}
    (hv : RunM lm lk mi x v) (hZ : RunK lm lk kzz z z Z) (hK : Z.add noise = some K) (hs : K.r = K.c)
    (hp : (K.sq K.r).PosDef) (hu : RunM lm lk mz z u) (hB : RunK lm lk kzi z x B) (hl : u.length = K.r)
    (hl' : y.length = K.r)
    (hq : Mat.tmulVec B ((K.sq K.r)⁻¹ *ᵥ fun a : Fin K.r => y.getD a 0 - u.getD a 0) = some q)
    (hw : zipCol (· + ·) v q = some w) : RunM lm lk (.post mi mz kzi z kzz noise y) x w := by
  obtain ⟨n1, hv⟩ := hv.le
  obtain ⟨n2, hZ⟩ := hZ.le
  obtain ⟨n3, hB⟩ := hB.le
  obtain ⟨n4, hu⟩ := hu.le
  refine RunM.intro ⟨n1 + n2 + n3 + n4, ?_⟩
  simp only [stepM, hv _ (by omega : n1 ≤ n1 + n2 + n3 + n4), hB _ (by omega : n3 ≤ n1 + n2 + n3 + n4),
    hu _ (by omega : n4 ≤ n1 + n2 + n3 + n4),
    stepKz_of (hZ _ (by omega : n2 ≤ n1 + n2 + n3 + n4)) hK hs hp]
  show (if u.length = K.r ∧ y.length = K.r then _ else _) = _
  rw [if_pos ⟨hl, hl'⟩, hq]
  exact hw

end Stheno
