import Verif.SoundAlg

/-!
# Tuples of inputs

If a kernel is right at inputs that are not tuples, then it is right at tuples.
-/

namespace Stheno

set_option linter.unusedSectionVars false

open Mat

theorem Input.ind {P : Input → Prop} (num : ∀ xs, P (.num xs)) (fdd : ∀ p x, P x → P (.fdd p x))
    (tup : ∀ xs, (∀ x ∈ xs, P x) → P (.tup xs)) : ∀ x, P x
  | .num xs => num xs
  | .fdd p x => fdd p x (Input.ind num fdd tup x)
  | .tup xs => tup xs fun x _ => Input.ind num fdd tup x

/-- Induction on inputs where only tuples are taken apart. -/
theorem Input.atomInd {P : Input → Prop} (atom : ∀ x, x.IsAtom → P x)
    (tup : ∀ xs, (∀ x ∈ xs, P x) → P (.tup xs)) (x : Input) : P x :=
  Input.ind (fun _ => atom _ trivial) (fun _ _ _ => atom _ trivial) tup x

theorem mapM_cons_some {α β : Type} {f : α → Option β} {a : α} {l : List α} {l' : List β}
    (h : (a :: l).mapM f = some l') : ∃ b bs, f a = some b ∧ l.mapM f = some bs ∧ l' = b :: bs := by
  rw [List.mapM_cons] at h
  obtain ⟨b, hb, h⟩ := bind_some h
  obtain ⟨bs, hbs, h⟩ := bind_some h
  cases h
  exact ⟨b, bs, hb, hbs, rfl⟩

theorem mapM_cons_of {α β : Type} {f : α → Option β} {a : α} {l : List α} {b : β} {bs : List β}
    (h : f a = some b) (hs : l.mapM f = some bs) : (a :: l).mapM f = some (b :: bs) := by
  rw [List.mapM_cons, h, hs]; rfl

theorem hcat_some {A B M : Mat} (h : A.hcat B = some M) : A.r = B.r ∧
    M = ⟨A.r, A.c + B.c, fun i j => if j < A.c then A.e i j else B.e i (j - A.c)⟩ := by
  unfold Mat.hcat at h; split at h
  · next hc => simp at h; exact ⟨hc, h.symm⟩
  · simp at h

theorem vcat_some {A B M : Mat} (h : A.vcat B = some M) : A.c = B.c ∧
    M = ⟨A.r + B.r, A.c, fun i j => if i < A.r then A.e i j else B.e (i - A.r) j⟩ := by
  unfold Mat.vcat at h; split at h
  · next hc => simp at h; exact ⟨hc, h.symm⟩
  · simp at h

section
variable {V : Type} [AddCommGroup V] [Module ℝ V] {S : SO V}

theorem getD_append_lt {us vs : List V} {i : ℕ} (h : i < us.length) : (us ++ vs).getD i 0 = us.getD i 0 := by
  simp only [List.getD_eq_getElem?_getD, List.getElem?_append_left h]

theorem getD_append_ge {us vs : List V} {i : ℕ} (h : us.length ≤ i) :
    (us ++ vs).getD i 0 = vs.getD (i - us.length) 0 := by
  simp only [List.getD_eq_getElem?_getD, List.getElem?_append_right h]

theorem Mat.Fits.hcat {vs ws ws' : List V} {A B M : Mat} (ha : Fits A (covMat S vs ws))
    (hb : Fits B (covMat S vs ws')) (h : A.hcat B = some M) : Fits M (covMat S vs (ws ++ ws')) := by
  obtain ⟨hr, rfl⟩ := hcat_some h
  have h1 : A.c ≤ ws.length := ha.c
  have h2 : B.c ≤ ws'.length := hb.c
  refine ⟨ha.r, ?_, fun er ec i hi j hj => ?_⟩
  · show A.c + B.c ≤ (ws ++ ws').length
    rw [List.length_append]; omega
  · have ec' : A.c + B.c = ws.length + ws'.length := by
      have : A.c + B.c = (ws ++ ws').length := ec
      rwa [List.length_append] at this
    have hj' : j < ws.length + ws'.length := by
      have : j < (ws ++ ws').length := hj
      rwa [List.length_append] at this
    have e1 : A.c = ws.length := by omega
    have e2 : B.c = ws'.length := by omega
    show (if j < A.c then A.e i j else B.e i (j - A.c)) = S.C (vs.getD i 0) ((ws ++ ws').getD j 0)
    by_cases hlt : j < A.c
    · rw [if_pos hlt, getD_append_lt (e1 ▸ hlt)]
      exact ha.e er e1 i hi j (by show _ < ws.length; omega)
    · rw [if_neg hlt, getD_append_ge (by omega), e1]
      exact hb.e (hr ▸ er) e2 i hi _ (by show _ < ws'.length; omega)

theorem Mat.Fits.vcat {vs vs' ws : List V} {A B M : Mat} (ha : Fits A (covMat S vs ws))
    (hb : Fits B (covMat S vs' ws)) (h : A.vcat B = some M) : Fits M (covMat S (vs ++ vs') ws) := by
  obtain ⟨hc, rfl⟩ := vcat_some h
  have h1 : A.r ≤ vs.length := ha.r
  have h2 : B.r ≤ vs'.length := hb.r
  refine ⟨?_, ha.c, fun er ec i hi j hj => ?_⟩
  · show A.r + B.r ≤ (vs ++ vs').length
    rw [List.length_append]; omega
  · have er' : A.r + B.r = vs.length + vs'.length := by
      have : A.r + B.r = (vs ++ vs').length := er
      rwa [List.length_append] at this
    have hi' : i < vs.length + vs'.length := by
      have : i < (vs ++ vs').length := hi
      rwa [List.length_append] at this
    have e1 : A.r = vs.length := by omega
    have e2 : B.r = vs'.length := by omega
    show (if i < A.r then A.e i j else B.e (i - A.r) j) = S.C ((vs ++ vs').getD i 0) (ws.getD j 0)
    by_cases hlt : i < A.r
    · rw [if_pos hlt, getD_append_lt (e1 ▸ hlt)]
      exact ha.e e1 ec i (by show _ < vs.length; omega) j hj
    · rw [if_neg hlt, getD_append_ge (by omega), e1]
      exact hb.e e2 (hc ▸ ec) _ (by show _ < vs'.length; omega) j hj

theorem Mat.FitsD.append {vs vs' ws ws' : List V} {u u' : List ℝ} (ha : FitsD u (covMat S vs ws))
    (hb : FitsD u' (covMat S vs' ws')) : FitsD (u ++ u') (covMat S (vs ++ vs') (ws ++ ws')) := by
  have h1 : u.length ≤ vs.length := ha.r
  have h2 : u'.length ≤ vs'.length := hb.r
  have h3 : u.length ≤ ws.length := ha.c
  have h4 : u'.length ≤ ws'.length := hb.c
  refine ⟨?_, ?_, fun er ec i hi => ?_⟩
  · show _ ≤ (vs ++ vs').length
    simp only [List.length_append]; omega
  · show _ ≤ (ws ++ ws').length
    simp only [List.length_append]; omega
  · have er' : (u ++ u').length = (vs ++ vs').length := er
    have ec' : (u ++ u').length = (ws ++ ws').length := ec
    have hi' : i < (vs ++ vs').length := hi
    simp only [List.length_append] at er' ec' hi'
    show _ = some (S.C ((vs ++ vs').getD i 0) ((ws ++ ws').getD i 0))
    by_cases hlt : i < u.length
    · rw [List.getElem?_append_left hlt, getD_append_lt (by omega), getD_append_lt (by omega)]
      exact ha.e (by show _ = vs.length; omega) (by show _ = ws.length; omega) i (by show _ < vs.length; omega)
    · rw [List.getElem?_append_right (by omega), getD_append_ge (by omega), getD_append_ge (by omega)]
      have e1 : vs.length = u.length := by omega
      have e2 : ws.length = u.length := by omega
      rw [e1, e2]
      exact hb.e (by show _ = vs'.length; omega) (by show _ = ws'.length; omega) _ (by show _ < vs'.length; omega)

variable {r : Ev} {k : KExpr} {G H : RF V}

theorem row_fits (hr : ∀ x y A T, r.K k x y = some A → cov S G H x y = some T → Fits A T) {x : Input}
    {vs : List V} (hx : G x = some vs) : ∀ {ys : List Input} {row : List Mat} {wss : List (List V)} {R : Mat},
    ys.mapM (fun y => r.K k x y) = some row → ys.mapM H = some wss → hcatL row = some R →
      Fits R (covMat S vs wss.flatten)
  | [], row, wss, R, h, hw, hR => by
    simp at h; subst h; simp [hcatL] at hR
  | y :: ys, row, wss, R, h, hw, hR => by
    obtain ⟨A, As, hA, hAs, rfl⟩ := mapM_cons_some h
    obtain ⟨ws, wss, hws, hwss, rfl⟩ := mapM_cons_some hw
    have h1 := hr x y A _ hA (cov_of S hx hws)
    cases As with
    | nil =>
      cases ys with
      | nil =>
        simp at hwss; subst hwss
        simp only [hcatL, Option.some.injEq] at hR; subst hR
        simpa using h1
      | cons y ys =>
        obtain ⟨_, _, _, _, h⟩ := mapM_cons_some hAs
        cases h
    | cons B Bs =>
      obtain ⟨R', hR', hR⟩ := bind_some (show (hcatL (B :: Bs) >>= A.hcat) = some R from hR)
      exact h1.hcat (row_fits hr hx hAs hwss hR') hR

theorem tupK_fits (hr : ∀ x y A T, r.K k x y = some A → cov S G H x y = some T → Fits A T)
    {ys : List Input} {wss : List (List V)} (hw : ys.mapM H = some wss) :
    ∀ {xs : List Input} {vss : List (List V)} {A : Mat}, tupK r k xs ys = some A → xs.mapM G = some vss →
      Fits A (covMat S vss.flatten wss.flatten)
  | [], vss, A, h, hv => by
    obtain ⟨rows, hrows, h⟩ := bind_some h
    simp at hrows; subst hrows; simp [vcatL] at h
  | x :: xs, vss, A, h, hv => by
    obtain ⟨rows, hrows, h0⟩ := bind_some h
    obtain ⟨R, Rs, hR, hRs, rfl⟩ := mapM_cons_some hrows
    obtain ⟨vs, vss, hvs, hvss, rfl⟩ := mapM_cons_some hv
    obtain ⟨row, hrow, hR⟩ := bind_some hR
    have h1 := row_fits hr hvs hrow hw hR
    cases Rs with
    | nil =>
      cases xs with
      | nil =>
        simp at hvss; subst hvss
        cases (show some R = some A from h0)
        simpa using h1
      | cons y ys =>
        obtain ⟨_, _, _, _, h⟩ := mapM_cons_some hRs
        cases h
    | cons B Bs =>
      obtain ⟨R', hR', h⟩ := bind_some (show (vcatL (B :: Bs) >>= R.vcat) = some A from h0)
      have h2 : tupK r k xs ys = some R' := by
        show (xs.mapM _ >>= vcatL) = _
        rw [hRs]
        exact hR'
      exact h1.vcat (tupK_fits hr hw h2 hvss) h

theorem tupD_fits (hr : ∀ x y u T, r.D k x y = some u → cov S G H x y = some T → FitsD u T) :
    ∀ {xs ys : List Input} {vss wss us : List _}, xs.length = ys.length →
      (xs.zip ys).mapM (fun xy => r.D k xy.1 xy.2) = some us → xs.mapM G = some vss → ys.mapM H = some wss →
      FitsD us.flatten (covMat S vss.flatten wss.flatten)
  | [], [], vss, wss, us, _, h, hv, hw => by
    simp at h hv hw; subst h hv hw
    exact ⟨le_rfl, le_rfl, fun _ _ i hi => absurd hi (Nat.not_lt_zero i)⟩
  | x :: xs, y :: ys, vss, wss, us, hl, h, hv, hw => by
    rw [List.zip_cons_cons] at h
    obtain ⟨u, us, hu, hus, rfl⟩ := mapM_cons_some h
    obtain ⟨vs, vss, hvs, hvss, rfl⟩ := mapM_cons_some hv
    obtain ⟨ws, wss, hws, hwss, rfl⟩ := mapM_cons_some hw
    simp only [List.flatten_cons]
    exact (hr x y u _ hu (cov_of S hvs hws)).append (tupD_fits hr (by simpa using hl) hus hvss hwss)

/-- A random function at `x` as at a tuple. -/
def asTup : Input → List Input
  | .tup xs => xs
  | x => [x]

theorem RF.OK.asTup (h : G.OK) {x : Input} {vs : List V} (hx : G x = some vs) :
    ∃ vss, (asTup x).mapM G = some vss ∧ vs = vss.flatten := by
  cases x with
  | num xs => exact ⟨[vs], by simp [Stheno.asTup, hx], by simp⟩
  | fdd p x => exact ⟨[vs], by simp [Stheno.asTup, hx], by simp⟩
  | tup xs =>
    rw [h.tup] at hx
    obtain ⟨vss, h1, h2⟩ := Option.map_eq_some_iff.1 hx
    exact ⟨vss, h1, h2.symm⟩

variable {lm : MId → PId → Option MExpr} {lk : MId → PId → PId → Option KExpr} {n : ℕ}

theorem ev_K_tup {x y : Input} (h : ¬ (x.IsAtom ∧ y.IsAtom)) :
    (ev lm lk (n + 1)).K k x y = tupK (ev lm lk n) k (asTup x) (asTup y) := by
  cases x <;> cases y <;> first | rfl | exact absurd ⟨trivial, trivial⟩ h

theorem ev_D_tup {x y : Input} (h : ¬ (x.IsAtom ∧ y.IsAtom)) :
    (ev lm lk (n + 1)).D k x y = tupD (ev lm lk n) k (asTup x) (asTup y) := by
  cases x <;> cases y <;> first | rfl | exact absurd ⟨trivial, trivial⟩ h

/-- Right at inputs that are not tuples implies right everywhere. -/
theorem AK.lift (hG : G.OK) (hH : H.OK) (h : AK lm lk n k (cov S G H)) : SK lm lk n k (cov S G H) := by
  induction n with
  | zero => exact ⟨h.zero, fun x y A T hA => by simp [ev, Ev.bot] at hA, fun x y A T hA => by simp [ev, Ev.bot] at hA⟩
  | succ n ih =>
    have ih := ih (h.mono (Nat.le_succ n))
    refine ⟨h.zero, fun x y A T hA hT => ?_, fun x y A T hA hT => ?_⟩
    · by_cases ha : x.IsAtom ∧ y.IsAtom
      · exact h.K x y A T ha.1 ha.2 hA hT
      · rw [ev_K_tup ha] at hA
        obtain ⟨vs, ws, hvs, hws, rfl⟩ := cov_some S hT
        obtain ⟨vss, h1, rfl⟩ := hG.asTup hvs
        obtain ⟨wss, h2, rfl⟩ := hH.asTup hws
        exact tupK_fits ih.K h2 hA h1
    · by_cases ha : x.IsAtom ∧ y.IsAtom
      · exact h.D x y A T ha.1 ha.2 hA hT
      · rw [ev_D_tup ha] at hA
        obtain ⟨vs, ws, hvs, hws, rfl⟩ := cov_some S hT
        obtain ⟨vss, h1, rfl⟩ := hG.asTup hvs
        obtain ⟨wss, h2, rfl⟩ := hH.asTup hws
        unfold tupD at hA
        split at hA
        · next hl =>
          obtain ⟨us, hus, hA⟩ := bind_some hA
          cases hA
          exact tupD_fits ih.D hl.1 hus h1 h2
        · cases hA

end

end Stheno
