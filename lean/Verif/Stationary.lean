import Verif.Calls

/-!
# Stationarity

The attribute `stationary` of kernels and GPs, as far as stheno and the kernels it builds define it.
-/

namespace Stheno

open Mat

/-- Input transformations which a kernel can have without losing its attribute `stationary`: shifts, stretches and selections of
features (contract of `mlkernels`). A kernel with another transformation is never called stationary. -/
def InTr.KeepsStationary : InTr → Prop
  | .shift _ | .stretch _ | .select _ => True
  | _ => False

/-- `k.stationary` (contract of `mlkernels`; `stheno/mo/adk.py:24-26` for ambiguous kernels; `MultiOutputKernel`,
`stheno/mo/kernel.py:14-36`, does not define it, so it is false, as it is for posterior kernels, derivatives and tensor products). `leaf` says which
kernels of the user are called stationary. Shifted, stretched and selected kernels with one amount for both inputs are called stationary if the kernel
is; with two amounts they are not. Simplification: two equal amounts are treated as one amount. -/
def KExpr.Stationary (leaf : (Pt → Pt → ℝ) → Prop) : KExpr → Prop
  | .prim k => leaf k
  | .zero => True
  | .adk k | .rev k | .scale _ k => k.Stationary leaf
  | .add a b | .mul a b => a.Stationary leaf ∧ b.Stationary leaf
  | .pre t u k => t = u ∧ t.KeepsStationary ∧ k.Stationary leaf
  | .mok _ _ | .tprod _ _ | .diff _ _ _ | .post _ _ _ _ _ _ | .pseudo _ _ _ _ _ _ _ => False

/-- `measure.kernels[p].stationary`. -/
def StationaryIn (w : World) (leaf : (Pt → Pt → ℝ) → Prop) (m : MId) (p : PId) : Prop :=
  ∃ k, kernelAt w m p p = some k ∧ k.Stationary leaf

/-- `p.stationary` (`stheno/model/gp.py:246-249`): that of the kernel in the primary measure of `p` (`stheno/model/gp.py:105-116`). -/
def GPStationary (w : World) (leaf : (Pt → Pt → ℝ) → Prop) (p : PId) : Prop :=
  ∃ m, (groups w p).head? = some m ∧ StationaryIn w leaf m p

/-- The row `x` moved by `c`. -/
def translate (c x : Pt) : Pt := List.zipWith (· + ·) x c

theorem translate_length {c x : Pt} (h : x.length = c.length) : (translate c x).length = c.length := by
  simp [translate, h]

/-- Kernels of the user that are called stationary depend on the difference of their inputs only. -/
def Truthful (leaf : (Pt → Pt → ℝ) → Prop) : Prop :=
  ∀ k, leaf k → ∀ c x y : Pt, x.length = c.length → y.length = c.length → k (translate c x) (translate c y) = k x y

/-! ## Moving inputs -/

/-- What a transformation of one row does to a translation. -/
structure Moves (ρ : Pt → Option Pt) (c c' : Pt) : Prop where
  move : ∀ x : Pt, x.length = c.length → (ρ x = none ∧ ρ (translate c x) = none) ∨
    ∃ y, ρ x = some y ∧ y.length = c'.length ∧ ρ (translate c x) = some (translate c' y)

theorem Moves.mapM {ρ : Pt → Option Pt} {c c' : Pt} (h : Moves ρ c c') : ∀ xs : List Pt, (∀ x ∈ xs, x.length = c.length) →
    (xs.mapM ρ = none ∧ (xs.map (translate c)).mapM ρ = none) ∨
    ∃ ys, xs.mapM ρ = some ys ∧ (∀ y ∈ ys, y.length = c'.length) ∧ (xs.map (translate c)).mapM ρ = some (ys.map (translate c'))
  | [], _ => .inr ⟨[], rfl, by simp, rfl⟩
  | x :: xs, hx => by
    rw [List.map_cons, List.mapM_cons, List.mapM_cons]
    rcases h.move x (hx x (by simp)) with ⟨h1, h2⟩ | ⟨y, h1, hl, h2⟩
    · rw [h1, h2]; exact .inl ⟨rfl, rfl⟩
    · rw [h1, h2]
      rcases h.mapM xs fun x h => hx x (by simp [h]) with ⟨h3, h4⟩ | ⟨ys, h3, hls, h4⟩
      · rw [h3, h4]; exact .inl ⟨rfl, rfl⟩
      · rw [h3, h4]
        exact .inr ⟨y :: ys, rfl, fun z hz => (List.mem_cons.1 hz).elim (fun e => e ▸ hl) (hls z), rfl⟩

theorem moves_sub (a : Amt) (c : Pt) : Moves (Amt.sub · a) c c := by
  refine ⟨fun x hx => ?_⟩
  cases a with
  | scalar s =>
    refine .inr ⟨_, rfl, by simpa using hx, ?_⟩
    show some _ = some _
    congr 1
    refine List.ext_getElem (by simp [translate]) fun i h1 h2 => ?_
    simp [translate]; ring
  | vec cs =>
    by_cases h : cs.length = x.length
    · refine .inr ⟨_, if_pos h, by simp [h, hx], ?_⟩
      show (if _ then _ else _) = _
      rw [if_pos (by rw [translate_length hx, ← hx, h])]
      congr 1
      refine List.ext_getElem (by simp [translate, h, hx]) fun i h1 h2 => ?_
      simp [translate]; ring
    · refine .inl ⟨if_neg h, if_neg (by rw [translate_length hx, ← hx]; exact h)⟩

theorem moves_div (a : Amt) (c : Pt) : ∃ c', Moves (Amt.div · a) c c' := by
  cases a with
  | scalar s =>
    refine ⟨c.map (· / s), ⟨fun x hx => .inr ⟨_, rfl, by simpa using hx, ?_⟩⟩⟩
    show some _ = some _
    congr 1
    refine List.ext_getElem (by simp [translate]) fun i h1 h2 => ?_
    simp [translate]; ring
  | vec cs =>
    refine ⟨List.zipWith (· / ·) c cs, ⟨fun x hx => ?_⟩⟩
    by_cases h : cs.length = x.length
    · refine .inr ⟨_, if_pos h, by simp [h, hx], ?_⟩
      show (if _ then _ else _) = _
      rw [if_pos (by rw [translate_length hx, ← hx, h])]
      congr 1
      refine List.ext_getElem (by simp [translate, h, hx]) fun i h1 h2 => ?_
      simp [translate]; ring
    · refine .inl ⟨if_neg h, if_neg (by rw [translate_length hx, ← hx]; exact h)⟩

theorem translate_get {c x : Pt} (hx : x.length = c.length) (d : ℕ) :
    (x[d]? = none ∧ c[d]? = none ∧ (translate c x)[d]? = none) ∨
    ∃ u v, x[d]? = some u ∧ c[d]? = some v ∧ (translate c x)[d]? = some (u + v) := by
  by_cases h : d < x.length
  · have hc : d < c.length := hx ▸ h
    refine .inr ⟨x[d], c[d], List.getElem?_eq_getElem h, List.getElem?_eq_getElem hc, ?_⟩
    simp [translate, h, hc]
  · have hc : ¬ d < c.length := hx ▸ h
    refine .inl ⟨by simpa using h, by simpa using hc, ?_⟩
    simp [translate]; omega

theorem moves_select (ds : List ℕ) (c : Pt) : Moves (fun x => ds.mapM (x[·]?)) c ((ds.mapM (c[·]?)).getD []) := by
  refine ⟨fun x hx => ?_⟩
  have key : ∀ ds : List ℕ, (ds.mapM (x[·]?) = none ∧ ds.mapM ((translate c x)[·]?) = none) ∨
      ∃ y e, ds.mapM (x[·]?) = some y ∧ ds.mapM (c[·]?) = some e ∧ y.length = e.length ∧
        ds.mapM ((translate c x)[·]?) = some (translate e y) := by
    intro ds
    induction ds with
    | nil => exact .inr ⟨[], [], rfl, rfl, rfl, rfl⟩
    | cons d ds ih =>
      simp only [List.mapM_cons]
      rcases translate_get hx d with ⟨h1, h2, h3⟩ | ⟨u, v, h1, h2, h3⟩
      · rw [h1, h3]; exact .inl ⟨rfl, rfl⟩
      · rw [h1, h2, h3]
        rcases ih with ⟨h4, h5⟩ | ⟨y, e, h4, h5, hl, h6⟩
        · rw [h4, h5]; exact .inl ⟨rfl, rfl⟩
        · rw [h4, h5, h6]
          exact .inr ⟨u :: y, v :: e, rfl, rfl, by simp [hl], rfl⟩
  rcases key ds with h | ⟨y, e, h1, h2, hl, h3⟩
  · exact .inl h
  · rw [h2]; exact .inr ⟨y, h1, hl, h3⟩

/-- Shifts, stretches and selections map translations to translations. -/
theorem InTr.apply_translate {t : InTr} (ht : t.KeepsStationary) (c : Pt) : ∃ c' : Pt, ∀ xs : List Pt, (∀ x ∈ xs, x.length = c.length) →
    (t.apply (.num xs) = Option.none ∧ t.apply (.num (xs.map (translate c))) = Option.none) ∨
    ∃ ys, t.apply (.num xs) = some (.num ys) ∧ (∀ y ∈ ys, y.length = c'.length) ∧
      t.apply (.num (xs.map (translate c))) = some (.num (ys.map (translate c'))) := by
  have key : ∀ {ρ : Pt → Option Pt} {c' : Pt}, Moves ρ c c' → (∀ xs, t.apply (.num xs) = (xs.mapM ρ).map .num) →
      ∀ xs : List Pt, (∀ x ∈ xs, x.length = c.length) →
      (t.apply (.num xs) = Option.none ∧ t.apply (.num (xs.map (translate c))) = Option.none) ∨
      ∃ ys, t.apply (.num xs) = some (.num ys) ∧ (∀ y ∈ ys, y.length = c'.length) ∧
        t.apply (.num (xs.map (translate c))) = some (.num (ys.map (translate c'))) := by
    intro ρ c' h e xs hx
    rw [e, e]
    rcases h.mapM xs hx with ⟨h1, h2⟩ | ⟨ys, h1, hl, h2⟩
    · rw [h1, h2]; exact .inl ⟨rfl, rfl⟩
    · rw [h1, h2]; exact .inr ⟨ys, rfl, hl, rfl⟩
  cases t with
  | shift a => exact ⟨c, key (moves_sub a c) fun _ => rfl⟩
  | stretch a =>
    obtain ⟨c', h⟩ := moves_div a c
    exact ⟨c', key h fun _ => rfl⟩
  | select ds => exact ⟨_, key (moves_select ds c) fun _ => rfl⟩
  | none => exact ht.elim
  | map => exact ht.elim
  | toFdd => exact ht.elim

/-! ## Stationary kernels do not change when inputs are moved -/

/-- The same outcome. -/
def SameK (a b : Option Mat) : Prop := (a = none ∧ b = none) ∨ ∃ A B, a = some A ∧ b = some B ∧ A.Eqv B

theorem SameK.zip {f : Mat → Mat → Option Mat} {g : ℝ → ℝ → ℝ}
    (hf : ∀ A B, f A B = if A.r = B.r ∧ A.c = B.c then some ⟨A.r, A.c, fun i j => g (A.e i j) (B.e i j)⟩ else none)
    {a b a' b' : Option Mat} (h : SameK a a') (h' : SameK b b') :
    SameK (do let A ← a; let B ← b; f A B) (do let A ← a'; let B ← b'; f A B) := by
  rcases h with ⟨rfl, rfl⟩ | ⟨A, A', rfl, rfl, hA⟩
  · exact .inl ⟨rfl, rfl⟩
  rcases h' with ⟨rfl, rfl⟩ | ⟨B, B', rfl, rfl, hB⟩
  · exact .inl ⟨rfl, rfl⟩
  show SameK (f A B) (f A' B')
  rw [hf, hf]
  by_cases h : A.r = B.r ∧ A.c = B.c
  · rw [if_pos h, if_pos ⟨hA.r ▸ hB.r ▸ h.1, hA.c ▸ hB.c ▸ h.2⟩]
    refine .inr ⟨_, _, rfl, rfl, hA.r, hA.c, fun i hi j hj => ?_⟩
    have h1 : A'.r = B'.r := by rw [← hA.r, ← hB.r, h.1]
    have h2 : A'.c = B'.c := by rw [← hA.c, ← hB.c, h.2]
    show g _ _ = g _ _
    rw [hA.e i hi j hj, hB.e i (h1 ▸ hi) j (h2 ▸ hj)]
  · rw [if_neg h, if_neg fun h' => h ⟨by rw [hA.r, hB.r, h'.1], by rw [hA.c, hB.c, h'.2]⟩]
    exact .inl ⟨rfl, rfl⟩

theorem SameK.map {a b : Option Mat} (h : SameK a b) {f : Mat → Mat} (hf : ∀ A B, A.Eqv B → (f A).Eqv (f B)) : SameK (a.map f) (b.map f) := by
  rcases h with ⟨rfl, rfl⟩ | ⟨A, A', rfl, rfl, hA⟩
  · exact .inl ⟨rfl, rfl⟩
  · exact .inr ⟨_, _, rfl, rfl, hf _ _ hA⟩

section
variable {lm : MId → PId → Option MExpr} {lk : MId → PId → PId → Option KExpr} {leaf : (Pt → Pt → ℝ) → Prop}

theorem stationary_K (hl : Truthful leaf) (n : ℕ) (k : KExpr) : k.Stationary leaf → ∀ (c : Pt) (xs ys : List Pt),
    (∀ x ∈ xs, x.length = c.length) → (∀ y ∈ ys, y.length = c.length) →
    SameK ((ev lm lk n).K k (.num (xs.map (translate c))) (.num (ys.map (translate c)))) ((ev lm lk n).K k (.num xs) (.num ys)) := by
  induction n generalizing k with
  | zero => intro _ c xs ys _ _; exact .inl ⟨rfl, rfl⟩
  | succ n ih =>
    intro hk c xs ys hx hy
    cases k with
    | prim k =>
      refine .inr ⟨_, _, rfl, rfl, by simp, by simp, fun i hi j hj => ?_⟩
      have hi : i < xs.length := hi
      have hj : j < ys.length := hj
      show k ((xs.map (translate c)).getD i []) ((ys.map (translate c)).getD j []) = k (xs.getD i []) (ys.getD j [])
      simp only [List.getD_eq_getElem?_getD, List.getElem?_map, List.getElem?_eq_getElem hi, List.getElem?_eq_getElem hj, Option.map_some,
        Option.getD_some]
      exact hl k hk c _ _ (hx _ (List.getElem_mem hi)) (hy _ (List.getElem_mem hj))
    | zero => exact .inr ⟨_, _, rfl, rfl, by simp [numElements], by simp [numElements], fun _ _ _ _ => rfl⟩
    | adk k => exact ih k hk c xs ys hx hy
    | add a b => exact SameK.zip (f := Mat.add) (g := (· + ·)) (fun _ _ => rfl) (ih a hk.1 c xs ys hx hy) (ih b hk.2 c xs ys hx hy)
    | mul a b => exact SameK.zip (f := Mat.mul) (g := (· * ·)) (fun _ _ => rfl) (ih a hk.1 c xs ys hx hy) (ih b hk.2 c xs ys hx hy)
    | scale s k =>
      exact (ih k hk c xs ys hx hy).map fun A B h => ⟨h.r, h.c, fun i hi j hj => by
        show s * _ = s * _
        rw [h.e i hi j hj]⟩
    | rev k => exact (ih k hk c ys xs hy hx).map fun A B h => ⟨h.c, h.r, fun i hi j hj => h.e j hj i hi⟩
    | pre t u k =>
      obtain ⟨rfl, ht, hk⟩ := hk
      obtain ⟨c', hc⟩ := InTr.apply_translate ht c
      show SameK (do
        let x' ← t.apply (.num (xs.map (translate c)))
        let y' ← t.apply (.num (ys.map (translate c)))
        (ev lm lk n).K k x' y') (do
        let x' ← t.apply (.num xs)
        let y' ← t.apply (.num ys)
        (ev lm lk n).K k x' y')
      rcases hc xs hx with ⟨h1, h2⟩ | ⟨xs', h1, hl1, h2⟩
      · rw [h1, h2]; exact .inl ⟨rfl, rfl⟩
      rcases hc ys hy with ⟨h3, h4⟩ | ⟨ys', h3, hl3, h4⟩
      · rw [h1, h2, h3, h4]; exact .inl ⟨rfl, rfl⟩
      rw [h1, h2, h3, h4]
      exact ih k hk c' xs' ys' hl1 hl3
    | mok => exact hk.elim
    | tprod => exact hk.elim
    | diff => exact hk.elim
    | post => exact hk.elim
    | pseudo => exact hk.elim

theorem stationary_D (hl : Truthful leaf) (n : ℕ) (k : KExpr) : k.Stationary leaf → ∀ (c : Pt) (xs ys : List Pt),
    (∀ x ∈ xs, x.length = c.length) → (∀ y ∈ ys, y.length = c.length) →
    (ev lm lk n).D k (.num (xs.map (translate c))) (.num (ys.map (translate c))) = (ev lm lk n).D k (.num xs) (.num ys) := by
  induction n generalizing k with
  | zero => intro _ c xs ys _ _; rfl
  | succ n ih =>
    intro hk c xs ys hx hy
    cases k with
    | prim k =>
      show (if _ then _ else _) = if _ then _ else _
      simp only [List.length_map]
      by_cases h : xs.length = ys.length
      · rw [if_pos h, if_pos h]
        congr 1
        refine List.ext_getElem (by simp) fun i h1 h2 => ?_
        simp only [List.getElem_zipWith, List.getElem_map]
        exact hl k hk c _ _ (hx _ (List.getElem_mem _)) (hy _ (List.getElem_mem _))
      · rw [if_neg h, if_neg h]
    | zero =>
      show (if (xs.map (translate c)).length = (ys.map (translate c)).length then
        some (List.replicate (xs.map (translate c)).length (0 : ℝ)) else none) =
        if xs.length = ys.length then some (List.replicate xs.length (0 : ℝ)) else none
      simp only [List.length_map]
    | adk k => exact ih k hk c xs ys hx hy
    | add a b =>
      show (do
        let u ← (ev lm lk n).D a _ _
        let v ← (ev lm lk n).D b _ _
        zipCol (· + ·) u v) = _
      rw [ih a hk.1 c xs ys hx hy, ih b hk.2 c xs ys hx hy]; rfl
    | mul a b =>
      show (do
        let u ← (ev lm lk n).D a _ _
        let v ← (ev lm lk n).D b _ _
        zipCol (· * ·) u v) = _
      rw [ih a hk.1 c xs ys hx hy, ih b hk.2 c xs ys hx hy]; rfl
    | scale s k =>
      show ((ev lm lk n).D k _ _).map _ = _
      rw [ih k hk c xs ys hx hy]; rfl
    | rev k => exact ih k hk c ys xs hy hx
    | pre t u k =>
      obtain ⟨rfl, ht, hk⟩ := hk
      obtain ⟨c', hc⟩ := InTr.apply_translate ht c
      show (do
        let x' ← t.apply (.num (xs.map (translate c)))
        let y' ← t.apply (.num (ys.map (translate c)))
        (ev lm lk n).D k x' y') = (do
        let x' ← t.apply (.num xs)
        let y' ← t.apply (.num ys)
        (ev lm lk n).D k x' y')
      rcases hc xs hx with ⟨h1, h2⟩ | ⟨xs', h1, hl1, h2⟩
      · rw [h1, h2]; rfl
      rcases hc ys hy with ⟨h3, h4⟩ | ⟨ys', h3, hl3, h4⟩
      · rw [h1, h2, h3, h4]; rfl
      rw [h1, h2, h3, h4]
      exact ih k hk c' xs' ys' hl1 hl3
    | mok => exact hk.elim
    | tprod => exact hk.elim
    | diff => exact hk.elim
    | post => exact hk.elim
    | pseudo => exact hk.elim

end

end Stheno
