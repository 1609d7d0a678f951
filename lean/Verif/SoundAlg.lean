import Verif.SecondOrder
import Verif.EvalMono

/-!
# Soundness of kernel and mean algebra

Each construction on kernel expressions computes the corresponding construction on matrices.
-/

namespace Stheno

open Mat

/-- What a kernel is supposed to evaluate to. -/
abbrev Den := Input → Input → Option Mat

/-- Zero at inputs that are not tuples. -/
def Den.Zero (D : Den) : Prop := ∀ x y T, x.IsAtom → y.IsAtom → D x y = some T →
  ∀ i < T.r, ∀ j < T.c, T.e i j = 0

/-- At least as large as the inputs, at inputs that are not tuples. -/
def Den.Big (D : Den) : Prop := ∀ x y T, x.IsAtom → y.IsAtom → D x y = some T →
  numElements x ≤ T.r ∧ numElements y ≤ T.c

/-- `D'` is the same as `D` where it is defined, at inputs that are not tuples. -/
def Den.Sub (D' D : Den) : Prop := ∀ x y T', x.IsAtom → y.IsAtom → D' x y = some T' →
  ∃ T, D x y = some T ∧ T.Eqv T'

section
variable (lm : MId → PId → Option MExpr) (lk : MId → PId → PId → Option KExpr)

/-- With recursion depth `n`, kernel `k` evaluates to `D` at inputs that are not tuples, if the shape is
right. The zero kernel does not know shapes, so it has to be right always. -/
structure AK (n : ℕ) (k : KExpr) (D : Den) : Prop where
  zero : k = .zero → D.Zero
  K : ∀ x y A T, x.IsAtom → y.IsAtom → (ev lm lk n).K k x y = some A → D x y = some T → Fits A T
  D : ∀ x y u T, x.IsAtom → y.IsAtom → (ev lm lk n).D k x y = some u → D x y = some T → FitsD u T

/-- The same for all inputs. -/
structure SK (n : ℕ) (k : KExpr) (D : Den) : Prop where
  zero : k = .zero → D.Zero
  K : ∀ x y A T, (ev lm lk n).K k x y = some A → D x y = some T → Fits A T
  D : ∀ x y u T, (ev lm lk n).D k x y = some u → D x y = some T → FitsD u T

/-- With recursion depth `n`, mean `a` evaluates to `D`, if the length is right. -/
def SM (n : ℕ) (a : MExpr) (D : Input → Option (List ℝ)) : Prop :=
  ∀ x u t, (ev lm lk n).M a x = some u → D x = some t → u.length ≤ t.length ∧ (u.length = t.length → u = t)

end

section
variable {lm : MId → PId → Option MExpr} {lk : MId → PId → PId → Option KExpr} {n : ℕ}

theorem SK.ak {k : KExpr} {D : Den} (h : SK lm lk n k D) : AK lm lk n k D :=
  ⟨h.zero, fun x y A T _ _ => h.K x y A T, fun x y A T _ _ => h.D x y A T⟩

theorem AK.mono {k : KExpr} {D : Den} {n' : ℕ} (h : AK lm lk n k D) (hn : n' ≤ n) : AK lm lk n' k D :=
  ⟨h.zero, fun x y A T hx hy hA hT => h.K x y A T hx hy ((ev_le hn).K _ _ _ _ hA) hT,
    fun x y u T hx hy hA hT => h.D x y u T hx hy ((ev_le hn).D _ _ _ _ hA) hT⟩

theorem SK.mono {k : KExpr} {D : Den} {n' : ℕ} (h : SK lm lk n k D) (hn : n' ≤ n) : SK lm lk n' k D :=
  ⟨h.zero, fun x y A T hA hT => h.K x y A T ((ev_le hn).K _ _ _ _ hA) hT,
    fun x y u T hA hT => h.D x y u T ((ev_le hn).D _ _ _ _ hA) hT⟩

theorem SM.mono {a : MExpr} {D : Input → Option (List ℝ)} {n' : ℕ} (h : SM lm lk n a D) (hn : n' ≤ n) :
    SM lm lk n' a D :=
  fun x u t hu ht => h x u t ((ev_le hn).M _ _ _ hu) ht

theorem AK.of_sub {k : KExpr} {D D' : Den} (h : AK lm lk n k D) (hs : D'.Sub D) : AK lm lk n k D' := by
  refine ⟨fun hk x y T' hx hy hT' i hi j hj => ?_, fun x y A T' hx hy hA hT' => ?_,
    fun x y A T' hx hy hA hT' => ?_⟩
  · obtain ⟨T, hT, e⟩ := hs x y T' hx hy hT'
    rw [← e.e i hi j hj]
    exact h.zero hk x y T hx hy hT i (e.r ▸ hi) j (e.c ▸ hj)
  · obtain ⟨T, hT, e⟩ := hs x y T' hx hy hT'
    exact (h.K x y A T hx hy hA hT).congr e
  · obtain ⟨T, hT, e⟩ := hs x y T' hx hy hT'
    exact (h.D x y A T hx hy hA hT).congr e

theorem ev_K_atom {k : KExpr} {x y : Input} (hx : x.IsAtom) (hy : y.IsAtom) :
    (ev lm lk (n + 1)).K k x y = stepKAtom lm lk (ev lm lk n) k x y := by
  cases x <;> cases y <;> first | rfl | exact hx.elim | exact hy.elim

theorem ev_D_atom {k : KExpr} {x y : Input} (hx : x.IsAtom) (hy : y.IsAtom) :
    (ev lm lk (n + 1)).D k x y = stepDAtom lm lk (ev lm lk n) k x y := by
  cases x <;> cases y <;> first | rfl | exact hx.elim | exact hy.elim

theorem bind_some {α β : Type} {a : Option α} {f : α → Option β} {b : β} (h : (a >>= f) = some b) :
    ∃ v, a = some v ∧ f v = some b := Option.bind_eq_some_iff.1 h

/-- How to show `AK` for an expression that is not zero. -/
theorem AK.intro {k : KExpr} {D : Den} (hz : k ≠ .zero)
    (hK : ∀ n', n' < n → ∀ x y A T, x.IsAtom → y.IsAtom → stepKAtom lm lk (ev lm lk n') k x y = some A →
      D x y = some T → Fits A T)
    (hD : ∀ n', n' < n → ∀ x y u T, x.IsAtom → y.IsAtom → stepDAtom lm lk (ev lm lk n') k x y = some u →
      D x y = some T → FitsD u T) : AK lm lk n k D := by
  refine ⟨fun h => absurd h hz, fun x y A T hx hy hA hT => ?_, fun x y A T hx hy hA hT => ?_⟩
  · cases n with
    | zero => simp [ev, Ev.bot] at hA
    | succ n => rw [ev_K_atom hx hy] at hA; exact hK n (Nat.lt_succ_self n) x y A T hx hy hA hT
  · cases n with
    | zero => simp [ev, Ev.bot] at hA
    | succ n => rw [ev_D_atom hx hy] at hA; exact hD n (Nat.lt_succ_self n) x y A T hx hy hA hT

/-- The zero kernel. -/
theorem AK.zeroK {D : Den} (hz : D.Zero) (hs : D.Big) : AK lm lk n .zero D := by
  refine ⟨fun _ => hz, fun x y A T hx hy hA hT => ?_, fun x y A T hx hy hA hT => ?_⟩
  · cases n with
    | zero => simp [ev, Ev.bot] at hA
    | succ n =>
      rw [ev_K_atom hx hy] at hA
      simp only [stepKAtom, Option.some.injEq] at hA
      subst hA
      exact ⟨(hs x y T hx hy hT).1, (hs x y T hx hy hT).2, fun _ _ i hi j hj => (hz x y T hx hy hT i hi j hj).symm⟩
  · cases n with
    | zero => simp [ev, Ev.bot] at hA
    | succ n =>
      rw [ev_D_atom hx hy] at hA
      simp only [stepDAtom] at hA
      split at hA
      · next he =>
        simp only [Option.some.injEq] at hA
        subst hA
        refine ⟨by simpa using (hs x y T hx hy hT).1, by simpa [he] using (hs x y T hx hy hT).2, fun er ec i hi => ?_⟩
        simp only [List.length_replicate] at er ec
        rw [List.getElem?_replicate, if_pos (by omega), hz x y T hx hy hT i hi i (by omega)]
      · simp at hA

/-- Sum of two specifications. -/
def Den.add (D E : Den) : Den := fun x y => do
  let A ← D x y
  let B ← E x y
  A.add B

/-- Entrywise product of two specifications. -/
def Den.mul (D E : Den) : Den := fun x y => do
  let A ← D x y
  let B ← E x y
  A.mul B

theorem Den.add_some {D E : Den} {x y : Input} {T : Mat} (h : D.add E x y = some T) :
    ∃ A B, D x y = some A ∧ E x y = some B ∧ A.add B = some T := by
  obtain ⟨A, hA, h⟩ := bind_some h
  obtain ⟨B, hB, h⟩ := bind_some h
  exact ⟨A, B, hA, hB, h⟩

theorem Den.mul_some {D E : Den} {x y : Input} {T : Mat} (h : D.mul E x y = some T) :
    ∃ A B, D x y = some A ∧ E x y = some B ∧ A.mul B = some T := by
  obtain ⟨A, hA, h⟩ := bind_some h
  obtain ⟨B, hB, h⟩ := bind_some h
  exact ⟨A, B, hA, hB, h⟩

theorem kadd_cases (a b : KExpr) : (a = .zero ∧ kadd a b = b) ∨ (b = .zero ∧ kadd a b = a) ∨
    (kadd a b = .add a b) := by
  unfold kadd
  split
  · exact .inl ⟨rfl, rfl⟩
  · exact .inr (.inl ⟨rfl, rfl⟩)
  · exact .inr (.inr rfl)

theorem AK.kadd {a b : KExpr} {D E : Den} (ha : AK lm lk n a D) (hb : AK lm lk n b E) :
    AK lm lk n (kadd a b) (D.add E) := by
  rcases kadd_cases a b with ⟨rfl, h⟩ | ⟨rfl, h⟩ | h
  · rw [h]
    refine hb.of_sub fun x y T' hx hy hT' => ?_
    obtain ⟨A, B, hA, hB, hT⟩ := Den.add_some hT'
    obtain ⟨hr, hc, rfl⟩ := Mat.add_some hT
    refine ⟨B, hB, hr.symm, hc.symm, fun i hi j hj => ?_⟩
    show B.e i j = A.e i j + B.e i j
    rw [ha.zero rfl x y A hx hy hA i hi j hj, zero_add]
  · rw [h]
    refine ha.of_sub fun x y T' hx hy hT' => ?_
    obtain ⟨A, B, hA, hB, hT⟩ := Den.add_some hT'
    obtain ⟨hr, hc, rfl⟩ := Mat.add_some hT
    refine ⟨A, hA, rfl, rfl, fun i hi j hj => ?_⟩
    show A.e i j = A.e i j + B.e i j
    rw [hb.zero rfl x y B hx hy hB i (hr ▸ hi) j (hc ▸ hj), add_zero]
  · rw [h]
    refine AK.intro (by simp) (fun n' hn x y A T hx hy hA hT => ?_) (fun n' hn x y A T hx hy hA hT => ?_)
    · obtain ⟨A1, h1, hA⟩ := bind_some hA
      obtain ⟨A2, h2, hA⟩ := bind_some hA
      obtain ⟨T1, T2, t1, t2, hT⟩ := Den.add_some hT
      exact ((ha.mono hn.le).K _ _ _ _ hx hy h1 t1).add ((hb.mono hn.le).K _ _ _ _ hx hy h2 t2) hA hT
    · obtain ⟨A1, h1, hA⟩ := bind_some hA
      obtain ⟨A2, h2, hA⟩ := bind_some hA
      obtain ⟨T1, T2, t1, t2, hT⟩ := Den.add_some hT
      exact ((ha.mono hn.le).D _ _ _ _ hx hy h1 t1).add ((hb.mono hn.le).D _ _ _ _ hx hy h2 t2) hA hT

theorem kmul_cases (a b : KExpr) : (a = .zero ∧ kmul a b = .zero) ∨ (b = .zero ∧ kmul a b = .zero) ∨
    (kmul a b = .mul a b) := by
  unfold kmul
  split
  · exact .inl ⟨rfl, rfl⟩
  · exact .inr (.inl ⟨rfl, rfl⟩)
  · exact .inr (.inr rfl)

theorem AK.kmul {a b : KExpr} {D E : Den} (ha : AK lm lk n a D) (hb : AK lm lk n b E)
    (hbig : (D.mul E).Big) : AK lm lk n (kmul a b) (D.mul E) := by
  rcases kmul_cases a b with ⟨rfl, h⟩ | ⟨rfl, h⟩ | h
  · rw [h]
    refine AK.zeroK (fun x y T hx hy hT i hi j hj => ?_) hbig
    obtain ⟨A, B, hA, hB, hT⟩ := Den.mul_some hT
    obtain ⟨hr, hc, rfl⟩ := Mat.mul_some hT
    show A.e i j * B.e i j = 0
    rw [ha.zero rfl x y A hx hy hA i hi j hj, zero_mul]
  · rw [h]
    refine AK.zeroK (fun x y T hx hy hT i hi j hj => ?_) hbig
    obtain ⟨A, B, hA, hB, hT⟩ := Den.mul_some hT
    obtain ⟨hr, hc, rfl⟩ := Mat.mul_some hT
    show A.e i j * B.e i j = 0
    rw [hb.zero rfl x y B hx hy hB i (hr ▸ hi) j (hc ▸ hj), mul_zero]
  · rw [h]
    refine AK.intro (by simp) (fun n' hn x y A T hx hy hA hT => ?_) (fun n' hn x y A T hx hy hA hT => ?_)
    · obtain ⟨A1, h1, hA⟩ := bind_some hA
      obtain ⟨A2, h2, hA⟩ := bind_some hA
      obtain ⟨T1, T2, t1, t2, hT⟩ := Den.mul_some hT
      exact ((ha.mono hn.le).K _ _ _ _ hx hy h1 t1).mul ((hb.mono hn.le).K _ _ _ _ hx hy h2 t2) hA hT
    · obtain ⟨A1, h1, hA⟩ := bind_some hA
      obtain ⟨A2, h2, hA⟩ := bind_some hA
      obtain ⟨T1, T2, t1, t2, hT⟩ := Den.mul_some hT
      exact ((ha.mono hn.le).D _ _ _ _ hx hy h1 t1).mul ((hb.mono hn.le).D _ _ _ _ hx hy h2 t2) hA hT

theorem AK.kscale {k : KExpr} {D : Den} (h : AK lm lk n k D) (hbig : D.Big) (c : ℝ) :
    AK lm lk n (kscale c k) (fun x y => (D x y).map (Mat.smul c)) := by
  by_cases hk : k = .zero
  · subst hk
    refine AK.zeroK (fun x y T hx hy hT i hi j hj => ?_) (fun x y T hx hy hT => ?_)
    · obtain ⟨T', hT', rfl⟩ := Option.map_eq_some_iff.1 hT
      show c * T'.e i j = 0
      rw [h.zero rfl x y T' hx hy hT' i hi j hj, mul_zero]
    · obtain ⟨T', hT', rfl⟩ := Option.map_eq_some_iff.1 hT
      exact hbig x y T' hx hy hT'
  · have : Stheno.kscale c k = KExpr.scale c k := by unfold Stheno.kscale; split <;> trivial
    rw [this]
    refine AK.intro (by simp) (fun n' hn x y A T hx hy hA hT => ?_) (fun n' hn x y A T hx hy hA hT => ?_)
    · obtain ⟨A', hA', rfl⟩ := Option.map_eq_some_iff.1 hA
      obtain ⟨T', hT', rfl⟩ := Option.map_eq_some_iff.1 hT
      exact ((h.mono hn.le).K _ _ _ _ hx hy hA' hT').smul c
    · obtain ⟨A', hA', rfl⟩ := Option.map_eq_some_iff.1 hA
      obtain ⟨T', hT', rfl⟩ := Option.map_eq_some_iff.1 hT
      exact ((h.mono hn.le).D _ _ _ _ hx hy hA' hT').smul c

theorem AK.krev {k : KExpr} {D : Den} (h : AK lm lk n k D) (hbig : D.Big) :
    AK lm lk n (krev k) (fun x y => (D y x).map Mat.tr) := by
  by_cases hk : k = .zero
  · subst hk
    refine AK.zeroK (fun x y T hx hy hT i hi j hj => ?_) (fun x y T hx hy hT => ?_)
    · obtain ⟨T', hT', rfl⟩ := Option.map_eq_some_iff.1 hT
      exact h.zero rfl y x T' hy hx hT' j hj i hi
    · obtain ⟨T', hT', rfl⟩ := Option.map_eq_some_iff.1 hT
      exact ⟨(hbig y x T' hy hx hT').2, (hbig y x T' hy hx hT').1⟩
  · have : Stheno.krev k = KExpr.rev k := by unfold Stheno.krev; split <;> trivial
    rw [this]
    refine AK.intro (by simp) (fun n' hn x y A T hx hy hA hT => ?_) (fun n' hn x y A T hx hy hA hT => ?_)
    · obtain ⟨A', hA', rfl⟩ := Option.map_eq_some_iff.1 hA
      obtain ⟨T', hT', rfl⟩ := Option.map_eq_some_iff.1 hT
      exact ((h.mono hn.le).K _ _ _ _ hy hx hA' hT').tr
    · obtain ⟨T', hT', rfl⟩ := Option.map_eq_some_iff.1 hT
      exact ((h.mono hn.le).D _ _ _ _ hy hx hA hT').tr

theorem InTr.apply_atom {t : InTr} {x x' : Input} (h : t.apply x = some x') : x'.IsAtom := by
  cases t <;> cases x <;> simp only [InTr.apply, Option.map_eq_some_iff, Option.some.injEq, reduceCtorEq] at h <;>
    first | (subst h; trivial) | (obtain ⟨_, _, rfl⟩ := h; trivial)

theorem mapM_length {α β : Type} {f : α → Option β} : ∀ {l : List α} {l' : List β},
    l.mapM f = some l' → l'.length = l.length
  | [], l', h => by simp at h; subst h; rfl
  | a :: l, l', h => by
    rw [List.mapM_cons] at h
    obtain ⟨b, _, h⟩ := bind_some h
    obtain ⟨bs, hbs, h⟩ := bind_some h
    cases h
    simp [mapM_length hbs]

theorem InTr.apply_numElements {t : InTr} {x x' : Input} (h : t.apply x = some x') :
    numElements x' = numElements x := by
  cases t <;> cases x <;> simp only [InTr.apply, Option.map_eq_some_iff, Option.some.injEq, reduceCtorEq] at h <;>
    first
    | (subst h; simp [numElements])
    | (obtain ⟨_, h, rfl⟩ := h; simpa [numElements] using mapM_length h)

/-- Input transformations. -/
theorem AK.kpre {k : KExpr} {D D' : Den} {t u : InTr} (h : AK lm lk n k D) (hz : D.Zero → D'.Zero)
    (hbig : D'.Big) (hp : ∀ x y x' y' T', x.IsAtom → y.IsAtom → t.apply x = some x' → u.apply y = some y' →
      D' x y = some T' → ∃ T, D x' y' = some T ∧ T.Eqv T') : AK lm lk n (kpre t u k) D' := by
  by_cases hk : k = .zero
  · subst hk
    exact AK.zeroK (hz (h.zero rfl)) hbig
  · have : Stheno.kpre t u k = KExpr.pre t u k := by unfold Stheno.kpre; split <;> trivial
    rw [this]
    refine AK.intro (by simp) (fun n' hn x y A T' hx hy hA hT => ?_) (fun n' hn x y A T' hx hy hA hT => ?_)
    · obtain ⟨x', hx', hA⟩ := bind_some hA
      obtain ⟨y', hy', hA⟩ := bind_some hA
      obtain ⟨T, hT', e⟩ := hp x y x' y' T' hx hy hx' hy' hT
      exact ((h.mono hn.le).K _ _ _ _ (InTr.apply_atom hx') (InTr.apply_atom hy') hA hT').congr e
    · obtain ⟨x', hx', hA⟩ := bind_some hA
      obtain ⟨y', hy', hA⟩ := bind_some hA
      obtain ⟨T, hT', e⟩ := hp x y x' y' T' hx hy hx' hy' hT
      exact ((h.mono hn.le).D _ _ _ _ (InTr.apply_atom hx') (InTr.apply_atom hy') hA hT').congr e

/-- Redirection. -/
theorem AK.adk {k : KExpr} {D : Den} (h : AK lm lk n k D) : AK lm lk n (.adk k) D :=
  AK.intro (by simp) (fun _ hn x y A T hx hy hA hT => (h.mono hn.le).K x y A T hx hy hA hT)
    (fun _ hn x y A T hx hy hA hT => (h.mono hn.le).D x y A T hx hy hA hT)

end

end Stheno
