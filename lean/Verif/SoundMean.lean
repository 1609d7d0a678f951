import Verif.Interp

/-!
# Soundness of means: the constructions
-/

namespace Stheno

open Matrix

set_option linter.unusedSectionVars false

/-- `u` is `t`, if it has the right length; and it is not longer. -/
def FitsM (u t : List ℝ) : Prop := u.length ≤ t.length ∧ (u.length = t.length → u = t)

theorem FitsM.refl (u : List ℝ) : FitsM u u := ⟨le_rfl, fun _ => rfl⟩

theorem FitsM.zip {f : ℝ → ℝ → ℝ} {u v w t s : List ℝ} (hu : FitsM u t) (hv : FitsM v s)
    (h : zipCol f u v = some w) (hl : t.length = s.length) : FitsM w (List.zipWith f t s) := by
  obtain ⟨h1, rfl⟩ := zipCol_some h
  have := hu.1
  have := hv.1
  refine ⟨by simp only [List.length_zipWith]; omega, fun e => ?_⟩
  simp only [List.length_zipWith] at e
  rw [hu.2 (by omega), hv.2 (by omega)]

theorem FitsM.map {u t : List ℝ} (h : FitsM u t) (f : ℝ → ℝ) : FitsM (u.map f) (t.map f) :=
  ⟨by simpa using h.1, fun e => by rw [h.2 (by simpa using e)]⟩

theorem FitsM.append {u t u' t' : List ℝ} (h : FitsM u t) (h' : FitsM u' t') : FitsM (u ++ u') (t ++ t') := by
  have h1 := h.1
  have h2 := h'.1
  refine ⟨by simp only [List.length_append]; omega, fun e => ?_⟩
  simp only [List.length_append] at e
  rw [h.2 (by omega), h'.2 (by omega)]

section
variable {lm : MId → PId → Option MExpr} {lk : MId → PId → PId → Option KExpr} {n : ℕ}

theorem SM.intro {a : MExpr} {D : Input → Option (List ℝ)}
    (h : ∀ n', n' < n → ∀ x u t, stepM lm (ev lm lk n') a x = some u → D x = some t → FitsM u t) :
    SM lm lk n a D := by
  intro x u t hu ht
  cases n with
  | zero => simp [ev, Ev.bot] at hu
  | succ n => exact h n (Nat.lt_succ_self n) x u t hu ht

theorem SM.fits {a : MExpr} {D : Input → Option (List ℝ)} (h : SM lm lk n a D) {n' : ℕ} (hn : n' ≤ n)
    {x : Input} {u t : List ℝ} (hu : (ev lm lk n').M a x = some u) (ht : D x = some t) : FitsM u t :=
  h.mono hn x u t hu ht

end

variable {V : Type} [AddCommGroup V] [Module ℝ V] {S : SO V} {G A B : RF V}

theorem expect_some {G : RF V} {x : Input} {t : List ℝ} (h : expect S G x = some t) :
    ∃ vs, G x = some vs ∧ t = vs.map S.E := by
  obtain ⟨vs, h1, h2⟩ := Option.map_eq_some_iff.1 h
  exact ⟨vs, h1, h2.symm⟩

theorem expect_of {G : RF V} {x : Input} {vs : List V} (h : G x = some vs) :
    expect S G x = some (vs.map S.E) := by unfold expect; rw [h]; rfl

/-! ## From inputs that are not tuples to all inputs -/

theorem RF.OK.cons (h : G.OK) {x : Input} {xs : List Input} {us : List V} (hx : G (.tup (x :: xs)) = some us) :
    ∃ u u', G x = some u ∧ G (.tup xs) = some u' ∧ us = u ++ u' := by
  rw [h.tup] at hx
  obtain ⟨uss, h1, rfl⟩ := Option.map_eq_some_iff.1 hx
  obtain ⟨b, bs, hb, hbs, rfl⟩ := mapM_cons_some h1
  exact ⟨b, bs.flatten, hb, by rw [h.tup, hbs]; rfl, by simp⟩

theorem RF.OK.cons_of (h : G.OK) {x : Input} {xs : List Input} {u u' : List V} (hx : G x = some u)
    (hxs : G (.tup xs) = some u') : G (.tup (x :: xs)) = some (u ++ u') := by
  rw [h.tup] at hxs ⊢
  obtain ⟨uss, h1, rfl⟩ := Option.map_eq_some_iff.1 hxs
  rw [mapM_cons_of hx h1]
  simp

theorem RF.OK.nil (h : G.OK) : G (.tup []) = some [] := by rw [h.tup]; simp

/-- A relation between the values of two random functions holds at all inputs if it holds at inputs that are
not tuples. -/
theorem RF.OK.lift (hG : G.OK) (hA : A.OK) {P : Input → List V → List V → Prop} (nil : P (.tup []) [] [])
    (cons : ∀ x xs u us v vs, P x u v → P (.tup xs) us vs → P (.tup (x :: xs)) (u ++ us) (v ++ vs))
    (atom : ∀ x us, x.IsAtom → G x = some us → ∃ vs, A x = some vs ∧ P x us vs) :
    ∀ x us, G x = some us → ∃ vs, A x = some vs ∧ P x us vs := by
  intro x
  induction x using Input.atomInd with
  | atom x hx => exact fun us h => atom x us hx h
  | tup xs ih =>
    induction xs with
    | nil =>
      intro us h
      rw [hG.nil] at h; cases h
      exact ⟨[], hA.nil, nil⟩
    | cons x xs ih' =>
      intro us h
      obtain ⟨u, u', h1, h2, rfl⟩ := hG.cons h
      obtain ⟨v, hv, hp⟩ := ih x (List.mem_cons_self ..) u h1
      obtain ⟨v', hv', hp'⟩ := ih' (fun y hy => ih y (List.mem_cons_of_mem _ hy)) u' h2
      exact ⟨v ++ v', hA.cons_of hv hv', cons _ _ _ _ _ _ hp hp'⟩

/-! ## Functions -/

/-- The values of a function. -/
def Interp.FnVal (I : Interp V) (f : Fn) (x : Input) (us : List ℝ) : Prop :=
  match f with
  | .user f => ∀ xs, x = .num xs → us = xs.map f
  | .const c => us = List.replicate us.length c
  | .meanOf m p => expect (I.S m) (I.F m p) x = some us

theorem Interp.fnAt_val {I : Interp V} {f : Fn} {x : Input} {k : ℕ} {us : List ℝ}
    (h : I.fnAt f x k = some us) : I.FnVal f x us ∧ us.length = k := by
  cases f with
  | user f =>
    cases x with
    | num xs =>
      simp only [Interp.fnAt] at h
      split at h
      · next e =>
        cases h
        exact ⟨fun ys hy => by cases hy; rfl, by simpa using e⟩
      · cases h
    | fdd p x => simp [Interp.fnAt] at h
    | tup xs => simp [Interp.fnAt] at h
  | const c =>
    simp only [Interp.fnAt, Option.some.injEq] at h
    subst h
    exact ⟨by simp [Interp.FnVal], by simp⟩
  | meanOf m p =>
    obtain ⟨t, ht, h⟩ := bind_some h
    split at h
    · next e => cases h; exact ⟨ht, e⟩
    · cases h

theorem Interp.FnVal.nil {I : Interp V} (hok : ∀ m p, (I.F m p).OK) (f : Fn) : I.FnVal f (.tup []) [] := by
  cases f with
  | user f => intro xs h; cases h
  | const c => rfl
  | meanOf m p => exact expect_of (hok m p).nil

theorem Interp.FnVal.cons {I : Interp V} (hok : ∀ m p, (I.F m p).OK) {f : Fn} {x : Input} {xs : List Input}
    {u u' : List ℝ} (h : I.FnVal f x u) (h' : I.FnVal f (.tup xs) u') : I.FnVal f (.tup (x :: xs)) (u ++ u') := by
  cases f with
  | user f => intro xs h; cases h
  | const c =>
    simp only [Interp.FnVal] at h h' ⊢
    rw [List.length_append, List.replicate_add, ← h, ← h']
  | meanOf m p =>
    obtain ⟨vs, h1, h2⟩ := expect_some h
    obtain ⟨vs', h1', h2'⟩ := expect_some h'
    rw [h2, h2', ← List.map_append]
    exact expect_of ((hok m p).cons_of h1 h1')

section
variable {lm : MId → PId → Option MExpr} {lk : MId → PId → PId → Option KExpr} {n : ℕ} {I : Interp V}

/-- Calling a function gives its values. -/
theorem stepFn_fits (hm : ∀ (m : MId) p a, lm m p = some a → SM lm lk n a (expect (I.S m) (I.F m p)))
    {f : Fn} {x : Input} {u t : List ℝ} (hu : stepFn lm (ev lm lk n) f x = some u) (ht : I.FnVal f x t)
    (hs : numElements x ≤ t.length) : FitsM u t := by
  cases f with
  | user f =>
    cases x with
    | num xs =>
      simp only [stepFn, Option.some.injEq] at hu
      subst hu
      rw [ht xs rfl]
      exact FitsM.refl _
    | fdd p x => simp [stepFn] at hu
    | tup xs => simp [stepFn] at hu
  | const c =>
    simp only [stepFn, Option.some.injEq] at hu
    subst hu
    refine ⟨by simpa using hs, fun e => ?_⟩
    rw [List.length_replicate] at e
    rw [e]; exact ht.symm
  | meanOf m p =>
    obtain ⟨a, ha, hu⟩ := bind_some hu
    exact (hm m p a ha).fits le_rfl hu ht

theorem map_zipWith_E {I : Interp V} {S : SO V} (h1 : S.E I.one = 1) (vs : List V) (us : List ℝ) :
    (List.zipWith (fun v u => v + u • I.one) vs us).map S.E = List.zipWith (· + ·) (vs.map S.E) us := by
  induction vs generalizing us with
  | nil => rfl
  | cons v vs ih =>
    cases us with
    | nil => rfl
    | cons u us => simp [ih, h1]

theorem map_zipWith_smul {S : SO V} (vs : List V) (us : List ℝ) :
    (List.zipWith (fun v u => u • v) vs us).map S.E = List.zipWith (· * ·) us (vs.map S.E) := by
  induction vs generalizing us with
  | nil => cases us <;> rfl
  | cons v vs ih =>
    cases us with
    | nil => rfl
    | cons u us => simp [ih]

theorem map_zipWith_add {S : SO V} (vs ws : List V) :
    (List.zipWith (· + ·) vs ws).map S.E = List.zipWith (· + ·) (vs.map S.E) (ws.map S.E) := by
  induction vs generalizing ws with
  | nil => rfl
  | cons v vs ih =>
    cases ws with
    | nil => rfl
    | cons u us => simp [ih]

/-! ## The law of functions at all inputs -/

/-- The result of combining a random function with a function. -/
theorem fn_law (hok : ∀ m p, (I.F m p).OK) {f : Fn} {g : V → ℝ → V} (hG : G.OK) (hA : A.OK)
    (h : ∀ x, x.IsAtom → G x = do
      let vs ← A x
      let us ← I.fnAt f x vs.length
      pure (List.zipWith g vs us)) :
    ∀ x rs, G x = some rs → ∃ vs, A x = some vs ∧ ∃ us, I.FnVal f x us ∧ us.length = vs.length ∧
      rs = List.zipWith g vs us := by
  refine hG.lift hA (P := fun x rs vs => ∃ us, I.FnVal f x us ∧ us.length = vs.length ∧
    rs = List.zipWith g vs us) ⟨[], Interp.FnVal.nil hok f, rfl, rfl⟩ ?_ ?_
  · rintro x xs u us v vs ⟨t, h1, h2, rfl⟩ ⟨t', h1', h2', rfl⟩
    exact ⟨t ++ t', Interp.FnVal.cons hok h1 h1', by simp [h2, h2'], (List.zipWith_append h2.symm).symm⟩
  · intro x us hx hu
    rw [h x hx] at hu
    obtain ⟨vs, hvs, hu⟩ := bind_some hu
    obtain ⟨ts, hts, hu⟩ := bind_some hu
    cases hu
    obtain ⟨h1, h2⟩ := Interp.fnAt_val hts
    exact ⟨vs, hvs, ts, h1, h2, rfl⟩

theorem SM.addFn (hok : ∀ m p, (I.F m p).OK) (h1 : S.E I.one = 1) {f : Fn} (hG : G.OK) (hA : A.OK)
    (hm : ∀ n' < n, ∀ (m : MId) p a, lm m p = some a → SM lm lk n' a (expect (I.S m) (I.F m p)))
    (h : ∀ x, x.IsAtom → G x = do
      let vs ← A x
      let us ← I.fnAt f x vs.length
      pure (List.zipWith (fun v u => v + u • I.one) vs us)) {a : MExpr} (ha : SM lm lk n a (expect S A)) :
    SM lm lk n (.add a (.fn f)) (expect S G) := by
  refine SM.intro fun n' hn x u t hu ht => ?_
  obtain ⟨rs, hrs, rfl⟩ := expect_some ht
  obtain ⟨vs, hvs, us, h2, h3, rfl⟩ := fn_law hok hG hA h x rs hrs
  obtain ⟨u1, hu1, hu⟩ := bind_some hu
  obtain ⟨u2, hu2, hu⟩ := bind_some hu
  rw [map_zipWith_E h1]
  refine (ha.fits hn.le hu1 (expect_of hvs)).zip ?_ hu (by simp [h3])
  cases n' with
  | zero => simp [ev, Ev.bot] at hu2
  | succ n' =>
    exact stepFn_fits (hm n' (by omega)) hu2 h2 (by rw [h3]; exact hA.size _ _ hvs)

theorem SM.fmul (hok : ∀ m p, (I.F m p).OK) {f : Fn} (hG : G.OK) (hA : A.OK)
    (hm : ∀ n' < n, ∀ (m : MId) p a, lm m p = some a → SM lm lk n' a (expect (I.S m) (I.F m p)))
    (h : ∀ x, x.IsAtom → G x = do
      let vs ← A x
      let us ← I.fnAt f x vs.length
      pure (List.zipWith (fun v u => u • v) vs us)) {a : MExpr} (ha : SM lm lk n a (expect S A)) :
    SM lm lk n (.mul (.fn f) a) (expect S G) := by
  refine SM.intro fun n' hn x u t hu ht => ?_
  obtain ⟨rs, hrs, rfl⟩ := expect_some ht
  obtain ⟨vs, hvs, us, h2, h3, rfl⟩ := fn_law hok hG hA h x rs hrs
  obtain ⟨u2, hu2, hu⟩ := bind_some hu
  obtain ⟨u1, hu1, hu⟩ := bind_some hu
  rw [map_zipWith_smul]
  refine FitsM.zip ?_ (ha.fits hn.le hu1 (expect_of hvs)) hu (by simp [h3])
  cases n' with
  | zero => simp [ev, Ev.bot] at hu2
  | succ n' =>
    exact stepFn_fits (hm n' (by omega)) hu2 h2 (by rw [h3]; exact hA.size _ _ hvs)

theorem SM.sum (hG : G.OK) (hA : A.OK) (hB : B.OK) (h : ∀ x, x.IsAtom → G x = do
      let vs ← A x
      let ws ← B x
      zipAdd vs ws) {a b : MExpr} (ha : SM lm lk n a (expect S A)) (hb : SM lm lk n b (expect S B)) :
    SM lm lk n (.add a b) (expect S G) := by
  refine SM.intro fun n' hn x u t hu ht => ?_
  obtain ⟨rs, hrs, rfl⟩ := expect_some ht
  obtain ⟨vs, hvs, ws, hws, h3, rfl⟩ := hG.lift hA (P := fun x rs vs => ∃ ws, B x = some ws ∧
      vs.length = ws.length ∧ rs = List.zipWith (· + ·) vs ws) ⟨[], hB.nil, rfl, rfl⟩
    (by
      rintro x xs u us v vs ⟨t, h1, h2, rfl⟩ ⟨t', h1', h2', rfl⟩
      exact ⟨t ++ t', hB.cons_of h1 h1', by simp [h2, h2'], (List.zipWith_append h2).symm⟩)
    (by
      intro x us hx hu
      rw [h x hx] at hu
      obtain ⟨vs, hvs, hu⟩ := bind_some hu
      obtain ⟨ws, hws, hu⟩ := bind_some hu
      unfold zipAdd at hu
      split at hu
      · next e => cases hu; exact ⟨vs, hvs, ws, hws, e, rfl⟩
      · cases hu) x rs hrs
  obtain ⟨u1, hu1, hu⟩ := bind_some hu
  obtain ⟨u2, hu2, hu⟩ := bind_some hu
  rw [map_zipWith_add]
  exact (ha.fits hn.le hu1 (expect_of hvs)).zip (hb.fits hn.le hu2 (expect_of hws)) hu (by simp [h3])

theorem SM.scale (hG : G.OK) (hA : A.OK) {c : ℝ} (h : ∀ x, x.IsAtom → G x = (A x).map (·.map (c • ·)))
    {a : MExpr} (ha : SM lm lk n a (expect S A)) : SM lm lk n (.scale c a) (expect S G) := by
  refine SM.intro fun n' hn x u t hu ht => ?_
  obtain ⟨rs, hrs, rfl⟩ := expect_some ht
  obtain ⟨vs, hvs, rfl⟩ := hG.lift hA (P := fun x rs vs => rs = vs.map (c • ·)) rfl
    (by rintro x xs u us v vs rfl rfl; simp)
    (by
      intro x us hx hu
      rw [h x hx] at hu
      obtain ⟨vs, hvs, rfl⟩ := Option.map_eq_some_iff.1 hu
      exact ⟨vs, hvs, rfl⟩) x rs hrs
  obtain ⟨u1, hu1, rfl⟩ := Option.map_eq_some_iff.1 hu
  have : (vs.map (c • ·)).map S.E = (vs.map S.E).map (c * ·) := by simp
  rw [this]
  exact (ha.fits hn.le hu1 (expect_of hvs)).map _

theorem InTr.apply_atom_left {t : InTr} {x x' : Input} (h : t.apply x = some x') : x.IsAtom := by
  cases t <;> cases x <;> trivial

theorem SM.pre {t : InTr} (h : ∀ x, x.IsAtom → G x = do A (← t.apply x)) {a : MExpr}
    (ha : SM lm lk n a (expect S A)) : SM lm lk n (.pre t a) (expect S G) := by
  refine SM.intro fun n' hn x u t hu ht => ?_
  obtain ⟨rs, hrs, rfl⟩ := expect_some ht
  obtain ⟨x', hx', hu⟩ := bind_some hu
  rw [h x (InTr.apply_atom_left hx'), hx'] at hrs
  exact ha.fits hn.le hu (expect_of hrs)

/-- The mean of the remainder of a product. -/
theorem SM.rem (hG : G.OK) (hA : A.OK) (hB : B.OK) (h : ∀ x rs, x.IsAtom → G x = some rs → ∃ vs ws, A x = some vs ∧
      B x = some ws ∧ vs.length = rs.length ∧ ws.length = rs.length ∧
        (∀ i < rs.length, S.E (rs.getD i 0) = -(S.E (vs.getD i 0) * S.E (ws.getD i 0))))
    {a b : MExpr} (ha : SM lm lk n a (expect S A)) (hb : SM lm lk n b (expect S B)) :
    SM lm lk n (.mul (.scale (-1) a) b) (expect S G) := by
  refine SM.intro fun n' hn x u t hu ht => ?_
  obtain ⟨rs, hrs, rfl⟩ := expect_some ht
  obtain ⟨vs, hvs, ws, hws, h3, h4⟩ := hG.lift hA (P := fun x rs vs => ∃ ws, B x = some ws ∧
      vs.length = ws.length ∧ rs.map S.E = List.zipWith (· * ·) ((vs.map S.E).map (-1 * ·)) (ws.map S.E))
    ⟨[], hB.nil, rfl, rfl⟩
    (by
      rintro x xs u us v vs ⟨t, h1, h2, e⟩ ⟨t', h1', h2', e'⟩
      refine ⟨t ++ t', hB.cons_of h1 h1', by simp [h2, h2'], ?_⟩
      simp only [List.map_append]
      rw [List.zipWith_append (by simp [h2]), e, e'])
    (by
      intro x us hx hu
      obtain ⟨vs, ws, hvs, hws, e1, e2, e3⟩ := h x us hx hu
      refine ⟨vs, hvs, ws, hws, e1.trans e2.symm, List.ext_getElem? fun i => ?_⟩
      by_cases hi : i < us.length
      · have := e3 i hi
        simp only [List.getD_eq_getElem?_getD] at this
        rw [List.getElem?_zipWith, List.getElem?_map, List.getElem?_map, List.getElem?_map,
          List.getElem?_map]
        have h1 : i < vs.length := by omega
        have h2 : i < ws.length := by omega
        simp only [List.getElem?_eq_getElem hi, List.getElem?_eq_getElem h1, List.getElem?_eq_getElem h2,
          Option.getD_some, Option.map_some] at this ⊢
        rw [this]; simp
      · rw [List.getElem?_eq_none (by simpa using hi), List.getElem?_eq_none (by simp; omega)]) x rs hrs
  obtain ⟨u1, hu1, hu⟩ := bind_some hu
  obtain ⟨u2, hu2, hu⟩ := bind_some hu
  rw [h4]
  refine FitsM.zip ?_ (hb.fits hn.le hu2 (expect_of hws)) hu (by simp [h3])
  cases n' with
  | zero => simp [ev, Ev.bot] at hu1
  | succ n' =>
    obtain ⟨u3, hu3, rfl⟩ := Option.map_eq_some_iff.1 (show Option.map _ _ = some u1 from hu1)
    exact (ha.fits (by omega) hu3 (expect_of hvs)).map _

end

end Stheno
