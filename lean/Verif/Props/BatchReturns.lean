import Verif.Props.BatchEval

/-!
# Means and kernels at batches of inputs: no errors

**C71.** If all inputs have the same batch dimensions, then means and kernels return at a batch of inputs if they return at the inputs of all indices of
the batch, and the result has these batch dimensions.
-/

namespace Stheno

open Matrix Ten

/-- Input transformations that give results of the same length for rows of the same length. -/
def InTr.Reg : InTr → Prop
  | .map g => ∀ x y : Pt, x.length = y.length → (g x).length = (g y).length
  | _ => True

/-- A constant. -/
def Fn.IsConst : Fn → Prop
  | .const _ => True
  | _ => False

mutual
/-- All arrays in the input have the batch dimensions `s`, and they and tuples are not empty. -/
def BInput.Is (s : List ℕ) : BInput → Prop
  | .num t => t.batch = s ∧ 0 < t.nrows
  | .fdd _ x => x.Is s
  | .tup xs => xs ≠ [] ∧ BInput.IsL s xs
/-- The same for the elements of a tuple. -/
def BInput.IsL (s : List ℕ) : List BInput → Prop
  | [] => True
  | x :: xs => x.Is s ∧ BInput.IsL s xs
end

/-- The matrices of a batch, whose batch dimensions can be broadcast to `s`. -/
def Ten.MatIs (s : List ℕ) (t : Ten ℝ) : Prop := ∃ r c b, t.shape = c :: r :: b ∧ Ten.Fits b s

/-- The columns of a batch, whose batch dimensions can be broadcast to `s`. -/
def Ten.ColIs (s : List ℕ) (t : Ten ℝ) : Prop := t.ncols = 1 ∧ Ten.Fits t.batch s

theorem Ten.MatIs.fits {s : List ℕ} {t : Ten ℝ} (h : t.MatIs s) : Ten.Fits t.shape.tail.tail s := by
  obtain ⟨r, c, b, h1, h2⟩ := h
  rw [h1]
  exact h2

/-- The inputs have the batch dimensions `s`, and the batch dimensions of noises and values can be broadcast to `s`. -/
structure BPseudo.Is (s : List ℕ) (o : BPseudo) : Prop where
  z : o.z.Is s
  noiseZ : o.noiseZ.MatIs s
  x : o.x.Is s
  noiseX : o.noiseX.MatIs s
  y : o.y.ColIs s

/-- The inputs of all observations have the batch dimensions `s`, and the batch dimensions of noises can be broadcast to `s`. Products of constants, which
have no batch dimensions, do not occur. -/
def BKExpr.Is (s : List ℕ) : BKExpr → Prop
  | .prim _ => True
  | .zero => True
  | .mok _ ps => ps ≠ []
  | .adk k => k.Is s
  | .add a b => a.Is s ∧ b.Is s
  | .mul a b => a.Is s ∧ b.Is s
  | .scale _ k => k.Is s
  | .tprod f g => ¬(f.IsConst ∧ g.IsConst)
  | .rev k => k.Is s
  | .pre t u k => t.Reg ∧ u.Reg ∧ k.Is s
  | .post kij kzi kzj z kzz noise => kij.Is s ∧ kzi.Is s ∧ kzj.Is s ∧ z.Is s ∧ kzz.Is s ∧ noise.MatIs s
  | .pseudo kij kzi kzj kzz kzx kxx o => kij.Is s ∧ kzi.Is s ∧ kzj.Is s ∧ kzz.Is s ∧ kzx.Is s ∧ kxx.Is s ∧ o.Is s

/-- The same for means. -/
def BMExpr.Is (s : List ℕ) : BMExpr → Prop
  | .zero => True
  | .fn _ => True
  | .mom _ ps => ps ≠ []
  | .add a b => a.Is s ∧ b.Is s
  | .mul a b => a.Is s ∧ b.Is s
  | .scale _ a => a.Is s
  | .pre t a => t.Reg ∧ a.Is s
  | .post mi mz kzi z kzz noise y => mi.Is s ∧ mz.Is s ∧ kzi.Is s ∧ z.Is s ∧ kzz.Is s ∧ noise.MatIs s ∧ y.ColIs s
  | .pseudo mi mz mx kzi kzz kzx kxx o => mi.Is s ∧ mz.Is s ∧ mx.Is s ∧ kzi.Is s ∧ kzz.Is s ∧ kzx.Is s ∧ kxx.Is s ∧ o.Is s

variable {s : List ℕ}

namespace BInput

theorem isL_iff : ∀ {xs : List BInput}, IsL s xs ↔ ∀ x ∈ xs, x.Is s
  | [] => by simp [IsL]
  | x :: xs => by simp [IsL, isL_iff (xs := xs)]

mutual
theorem Is.fits : ∀ {x : BInput}, x.Is s → x.Fits s
  | .num _, h => by rw [Fits, h.1]; exact .refl s
  | .fdd _ x, h => Is.fits (x := x) h
  | .tup xs, h => IsL.fits (xs := xs) h.2
theorem IsL.fits : ∀ {xs : List BInput}, IsL s xs → FitsL s xs
  | [], _ => trivial
  | _ :: _, h => ⟨h.1.fits, IsL.fits h.2⟩
end

mutual
theorem Is.batch : ∀ {x : BInput}, x.Is s → x.batch = some s
  | .num _, h => by rw [BInput.batch, h.1]
  | .fdd _ x, h => Is.batch (x := x) h
  | .tup xs, h => IsL.batch (xs := xs) h.1 h.2
theorem IsL.batch : ∀ {xs : List BInput}, xs ≠ [] → IsL s xs → batchL xs = some s
  | [], h, _ => absurd rfl h
  | [x], _, h => by
    rw [batchL, h.1.batch]
    exact bcast_nil s
  | x :: y :: xs, _, h => by
    rw [batchL, h.1.batch, IsL.batch (by simp) h.2]
    exact bcast_self s
end

end BInput

theorem BPseudo.Is.fits {o : BPseudo} (h : o.Is s) : o.Fits s := ⟨h.z.fits, h.noiseZ.fits, h.x.fits, h.noiseX.fits, h.y.2⟩

theorem BKExpr.Is.fits : ∀ {k : BKExpr}, k.Is s → k.Fits s
  | .prim _, _ => trivial
  | .zero, _ => trivial
  | .mok _ _, _ => trivial
  | .adk k, h => BKExpr.Is.fits (k := k) h
  | .add _ _, h => ⟨h.1.fits, h.2.fits⟩
  | .mul _ _, h => ⟨h.1.fits, h.2.fits⟩
  | .scale _ k, h => BKExpr.Is.fits (k := k) h
  | .tprod _ _, _ => trivial
  | .rev k, h => BKExpr.Is.fits (k := k) h
  | .pre _ _ k, h => BKExpr.Is.fits (k := k) h.2.2
  | .post .., ⟨h1, h2, h3, h4, h5, h6⟩ => ⟨h1.fits, h2.fits, h3.fits, h4.fits, h5.fits, h6.fits⟩
  | .pseudo .., ⟨h1, h2, h3, h4, h5, h6, h7⟩ => ⟨h1.fits, h2.fits, h3.fits, h4.fits, h5.fits, h6.fits, h7.fits⟩

theorem BMExpr.Is.fits : ∀ {a : BMExpr}, a.Is s → a.Fits s
  | .zero, _ => trivial
  | .fn _, _ => trivial
  | .mom _ _, _ => trivial
  | .add _ _, h => ⟨h.1.fits, h.2.fits⟩
  | .mul _ _, h => ⟨h.1.fits, h.2.fits⟩
  | .scale _ a, h => BMExpr.Is.fits (a := a) h
  | .pre _ a, h => BMExpr.Is.fits (a := a) h.2
  | .post .., ⟨h1, h2, h3, h4, h5, h6, h7⟩ => ⟨h1.fits, h2.fits, h3.fits, h4.fits, h5.fits, h6.fits, h7.2⟩
  | .pseudo .., ⟨h1, h2, h3, h4, h5, h6, h7, h8⟩ => ⟨h1.fits, h2.fits, h3.fits, h4.fits, h5.fits, h6.fits, h7.fits, h8.fits⟩

/-! ### Computations with arrays return -/

theorem bin_ok {f : ℝ → ℝ → ℝ} {a b : Ten ℝ} {r c : ℕ} {s' : List ℕ} (ha : a.shape = c :: r :: s) (hb : b.shape = c :: r :: s') (h : Ten.Fits s' s) :
    ∃ t, bin f a b = some t ∧ t.shape = c :: r :: s := by
  have : Ten.bcast a.shape b.shape = some (c :: r :: s) := by
    rw [ha, hb, bcast_cons, bcast_cons, bcast_comm, h]
    rfl
  obtain ⟨t, t1, t2⟩ := zip_some (f := f) this
  refine ⟨t, ?_, t2⟩
  unfold bin
  rw [ha, hb]
  simp only [and_self, if_true]
  exact t1

theorem bin_ok' {f : ℝ → ℝ → ℝ} {a b : Ten ℝ} {r c : ℕ} {s' : List ℕ} (ha : a.shape = c :: r :: s') (hb : b.shape = c :: r :: s) (h : Ten.Fits s' s) :
    ∃ t, bin f a b = some t ∧ t.shape = c :: r :: s := by
  have : Ten.bcast a.shape b.shape = some (c :: r :: s) := by
    rw [ha, hb, bcast_cons, bcast_cons, h]
    rfl
  obtain ⟨t, t1, t2⟩ := zip_some (f := f) this
  refine ⟨t, ?_, t2⟩
  unfold bin
  rw [ha, hb]
  simp only [and_self, if_true]
  exact t1

theorem iqf_ok {a b c : Ten ℝ} {n p q : ℕ} (ha : a.shape = n :: n :: s) (hb : b.shape = p :: n :: s) (hc : c.shape = q :: n :: s) :
    ∃ t, iqf a b c = some t ∧ t.shape = q :: p :: s := by
  have h : ∀ {t : Ten ℝ} {r c : ℕ}, t.shape = c :: r :: s → Mats s s t r c (t.mat r c) := fun h => ⟨s, h, .refl s, .refl s, fun _ => rfl⟩
  obtain ⟨t, t1, v, t2, t3, t4, -⟩ := (h ha).iqf (h hb) (h hc)
  exact ⟨t, t1, by rw [t2, t4.antisymm t3]⟩

theorem iqfCol_ok {a b c : Ten ℝ} {n p : ℕ} (ha : a.shape = n :: n :: s) (hb : b.shape = p :: n :: s) (hc : c.shape = p :: n :: s) :
    ∃ t, iqfCol a b c = some t ∧ t.shape = 1 :: p :: s := by
  obtain ⟨t, t1, t2⟩ := iqf_ok ha hb hc
  obtain ⟨x, x1, x2, -⟩ := diag_some t2
  exact ⟨x.newAxis, by simp [iqfCol, t1, x1], by simp [newAxis, x2]⟩

theorem mapM_each {α β : Type} {f : α → Option β} : ∀ {l : List α} {l' : List β}, l.mapM f = some l' → ∀ a ∈ l, ∃ b, f a = some b
  | [], _, _, a, h => by cases h
  | x :: l, l', e, a, h => by
    rw [List.mapM_cons] at e
    obtain ⟨b, hb, e⟩ := Option.bind_eq_some_iff.1 e
    obtain ⟨bs, hbs, e⟩ := Option.bind_eq_some_iff.1 e
    rcases List.mem_cons.1 h with rfl | h
    · exact ⟨b, hb⟩
    · exact mapM_each hbs a h

theorem hconcat_ok {β : Type} {F : β → Option (Ten ℝ)} {G : β → Option Mat} : ∀ {ys : List β} {H : Mat},
    (∀ y ∈ ys, ∃ t A, F y = some t ∧ G y = some A ∧ t.shape = A.c :: A.r :: s) → (ys.mapM G).bind Mat.hcatL = some H →
      ∃ ts t, ys.mapM F = some ts ∧ hconcat ts = some t ∧ t.shape = H.c :: H.r :: s
  | [], H, _, e => by cases e
  | [y], H, h, e => by
    obtain ⟨t, A, h1, h2, h3⟩ := h y (by simp)
    have e : some A = some H := by
      rw [List.mapM_cons, h2] at e
      exact e
    cases e
    exact ⟨[t], t, by rw [List.mapM_cons, h1]; rfl, by simp [hconcat, Ten.rank, h3], h3⟩
  | y :: y' :: ys, H, h, e => by
    obtain ⟨t, A, h1, h2, h3⟩ := h y (by simp)
    obtain ⟨As, hAs, e⟩ := Option.bind_eq_some_iff.1 e
    rw [List.mapM_cons] at hAs
    obtain ⟨A', hA', hAs⟩ := Option.bind_eq_some_iff.1 hAs
    obtain ⟨Bs, hBs, hAs⟩ := Option.bind_eq_some_iff.1 hAs
    cases h2.symm.trans hA'
    cases hAs
    obtain ⟨B, Bs', rfl⟩ : ∃ B Bs', Bs = B :: Bs' := by
      rw [List.mapM_cons] at hBs
      obtain ⟨b, _, hBs⟩ := Option.bind_eq_some_iff.1 hBs
      obtain ⟨bs, _, hBs⟩ := Option.bind_eq_some_iff.1 hBs
      cases hBs
      exact ⟨b, bs, rfl⟩
    obtain ⟨P, hP, e⟩ := Option.bind_eq_some_iff.1 (show (Mat.hcatL (B :: Bs')).bind _ = some H from e)
    obtain ⟨ts, p, k1, k2, k3⟩ := hconcat_ok (ys := y' :: ys) (H := P) (fun z hz => h z (by simp [hz])) (by rw [hBs]; exact hP)
    obtain ⟨q, qs, rfl⟩ : ∃ q qs, ts = q :: qs := by
      cases ts with
      | nil => cases k2
      | cons q qs => exact ⟨q, qs, rfl⟩
    unfold Mat.hcat at e
    split at e
    swap
    · cases e
    next hr =>
    cases e
    have h4 : ∃ w, t.hcat p = some w ∧ w.shape = (A.c + P.c) :: A.r :: s := by
      simp only [Ten.hcat, h3, k3, hr, and_self, if_true]
      exact ⟨_, rfl, rfl⟩
    obtain ⟨w, w1, w2⟩ := h4
    refine ⟨t :: q :: qs, w, by rw [List.mapM_cons, h1, k1]; rfl, ?_, w2⟩
    rw [hconcat, k2]
    · exact w1
    · simp

theorem concat_ok {β : Type} {F : β → Option (Ten ℝ)} {G : β → Option Mat} : ∀ {ys : List β} {H : Mat},
    (∀ y ∈ ys, ∃ t A, F y = some t ∧ G y = some A ∧ t.shape = A.c :: A.r :: s) → (ys.mapM G).bind Mat.vcatL = some H →
      ∃ ts t, ys.mapM F = some ts ∧ concat ts = some t ∧ t.shape = H.c :: H.r :: s
  | [], H, _, e => by cases e
  | [y], H, h, e => by
    obtain ⟨t, A, h1, h2, h3⟩ := h y (by simp)
    have e : some A = some H := by
      rw [List.mapM_cons, h2] at e
      exact e
    cases e
    exact ⟨[t], t, by rw [List.mapM_cons, h1]; rfl, by simp [concat, Ten.rank, h3], h3⟩
  | y :: y' :: ys, H, h, e => by
    obtain ⟨t, A, h1, h2, h3⟩ := h y (by simp)
    obtain ⟨As, hAs, e⟩ := Option.bind_eq_some_iff.1 e
    rw [List.mapM_cons] at hAs
    obtain ⟨A', hA', hAs⟩ := Option.bind_eq_some_iff.1 hAs
    obtain ⟨Bs, hBs, hAs⟩ := Option.bind_eq_some_iff.1 hAs
    cases h2.symm.trans hA'
    cases hAs
    obtain ⟨B, Bs', rfl⟩ : ∃ B Bs', Bs = B :: Bs' := by
      rw [List.mapM_cons] at hBs
      obtain ⟨b, _, hBs⟩ := Option.bind_eq_some_iff.1 hBs
      obtain ⟨bs, _, hBs⟩ := Option.bind_eq_some_iff.1 hBs
      cases hBs
      exact ⟨b, bs, rfl⟩
    obtain ⟨P, hP, e⟩ := Option.bind_eq_some_iff.1 (show (Mat.vcatL (B :: Bs')).bind _ = some H from e)
    obtain ⟨ts, p, k1, k2, k3⟩ := concat_ok (ys := y' :: ys) (H := P) (fun z hz => h z (by simp [hz])) (by rw [hBs]; exact hP)
    obtain ⟨q, qs, rfl⟩ : ∃ q qs, ts = q :: qs := by
      cases ts with
      | nil => cases k2
      | cons q qs => exact ⟨q, qs, rfl⟩
    unfold Mat.vcat at e
    split at e
    swap
    · cases e
    next hr =>
    cases e
    have h4 : ∃ w, t.cat p = some w ∧ w.shape = A.c :: (A.r + P.r) :: s := by
      simp only [Ten.cat, h3, k3, hr, and_self, if_true]
      exact ⟨_, rfl, rfl⟩
    obtain ⟨w, w1, w2⟩ := h4
    refine ⟨t :: q :: qs, w, by rw [List.mapM_cons, h1, k1]; rfl, ?_, w2⟩
    rw [concat, k2]
    · exact w1
    · simp

theorem flat_ok {β : Type} {F : β → Option (Ten ℝ)} : ∀ {ys : List β}, ys ≠ [] → (∀ y ∈ ys, ∃ t n, F y = some t ∧ t.shape = 1 :: n :: s) →
      ∃ ts t n, ys.mapM F = some ts ∧ concat ts = some t ∧ t.shape = 1 :: n :: s
  | [], h, _ => absurd rfl h
  | [y], _, h => by
    obtain ⟨t, n, h1, h3⟩ := h y (by simp)
    exact ⟨[t], t, n, by rw [List.mapM_cons, h1]; rfl, by simp [concat, Ten.rank, h3], h3⟩
  | y :: y' :: ys, _, h => by
    obtain ⟨t, n, h1, h3⟩ := h y (by simp)
    obtain ⟨ts, p, m, k1, k2, k3⟩ := flat_ok (ys := y' :: ys) (by simp) (fun z hz => h z (by simp [hz]))
    obtain ⟨q, qs, rfl⟩ : ∃ q qs, ts = q :: qs := by
      cases ts with
      | nil => cases k2
      | cons q qs => exact ⟨q, qs, rfl⟩
    have h4 : ∃ w, t.cat p = some w ∧ w.shape = 1 :: (n + m) :: s := by
      simp only [Ten.cat, h3, k3, and_self, if_true]
      exact ⟨_, rfl, rfl⟩
    obtain ⟨w, w1, w2⟩ := h4
    refine ⟨t :: q :: qs, w, n + m, by rw [List.mapM_cons, h1, k1]; rfl, ?_, w2⟩
    rw [concat, k2]
    · exact w1
    · simp

theorem Ten.Fits.onto : ∀ {v s d0 i : List ℕ}, Ten.Fits v s → In d0 s → In i v → ∃ d, In d s ∧ clip v d = i
  | [], s, d0, i, _, h0, hi => by
    cases hi
    exact ⟨d0, h0, rfl⟩
  | a :: v, [], _, _, h, _, _ => by cases h
  | a :: v, b :: s, _ :: d0, i :: is, h, .cons h0 hd0, .cons hi his => by
    obtain ⟨e, h⟩ := h.cases
    obtain ⟨d, d1, d2⟩ := h.onto hd0 his
    by_cases ha : a = 1
    · exact ⟨_ :: d, .cons h0 d1, by rw [clip, d2, if_pos ha]; congr 1; omega⟩
    · exact ⟨i :: d, .cons (by omega) d1, by rw [clip, d2, if_neg ha]⟩

theorem onRows_ok {g : Pt → Pt} {t : Ten ℝ} (hg : ∀ x y : Pt, x.length = t.ncols → y.length = t.ncols → (g x).length = (g y).length) :
    ∃ t', t.onRows g = some t' ∧ t'.batch = t.batch ∧ t'.nrows = t.nrows := by
  have h : ∃ f : ℕ, ∀ i < t.nrows, ∀ d, List.Forall₂ (· < ·) d t.batch → (g (t.row i d)).length = f :=
    ⟨(g (t.row 0 [])).length, fun i _ d _ => hg _ _ (row_length _ _ _) (row_length _ _ _)⟩
  refine ⟨_, dif_pos h, ?_, ?_⟩
  · rw [Ten.batch, uprank_of rfl]; rfl
  · rw [nrows, uprank_of rfl]; rfl

/-- The computation returns at all indices of the batch. -/
def OkAt {α : Type} (s : List ℕ) (f : List ℕ → Option α) : Prop := ∀ d, In d s → ∃ a, f d = some a

/-- Input transformations return. -/
theorem applyB_ok {tr : InTr} {x : BInput} {d0 : List ℕ} (h0 : In d0 s) (htr : tr.Reg) (hx : x.Is s) (h : OkAt s fun d => tr.apply (x.at' d)) :
    ∃ x', tr.applyB x = some x' ∧ x'.Is s := by
  obtain ⟨x0, e⟩ := h d0 h0
  have am : ∀ (t : Ten ℝ) (f : Pt → Option Pt), 0 < t.nrows → (∃ b, (((List.range t.nrows).map fun i => t.row i d0).mapM f).map Input.num = some b) →
      ∃ p : Pt, p.length = t.ncols ∧ (f p).isSome := by
    intro t f hn ⟨b, hb⟩
    obtain ⟨l, hl, -⟩ := Option.map_eq_some_iff.1 hb
    obtain ⟨q, hq⟩ := mapM_each hl (t.row 0 d0) (List.mem_map.2 ⟨0, List.mem_range.2 hn, rfl⟩)
    exact ⟨_, row_length _ _ _, by rw [hq]; rfl⟩
  have fin : ∀ (t : Ten ℝ) (g : Pt → Pt), t.batch = s ∧ 0 < t.nrows → (∀ x y : Pt, x.length = t.ncols → y.length = t.ncols → (g x).length = (g y).length) →
      ∃ x', (t.onRows g).map BInput.num = some x' ∧ x'.Is s := by
    intro t g ht hg
    obtain ⟨t', t1, t2, t3⟩ := onRows_ok hg
    exact ⟨.num t', by rw [t1]; rfl, t2.trans ht.1, by rw [t3]; exact ht.2⟩
  cases tr with
  | none =>
    cases x with
    | num t => exact ⟨_, rfl, hx⟩
    | fdd p x => exact ⟨_, rfl, hx⟩
    | tup xs => cases e
  | shift a =>
    cases x with
    | num t =>
      obtain ⟨p, p1, p2⟩ := am t _ hx.2 ⟨_, e⟩
      have ok : a.ok t.ncols = true := by
        cases a with
        | scalar c => rfl
        | vec cs =>
          by_contra h
          have h : ¬cs.length = p.length := by simpa [Amt.ok, p1] using h
          rw [Amt.sub, if_neg h] at p2
          cases p2
      simp only [InTr.applyB, ok, if_true]
      refine fin t _ hx fun x y h1 h2 => ?_
      cases a with
      | scalar c => simp [Amt.sub, h1, h2]
      | vec cs =>
        have : cs.length = t.ncols := by simpa [Amt.ok] using ok
        simp [Amt.sub, h1, h2, this]
    | fdd p x => cases e
    | tup xs => cases e
  | stretch a =>
    cases x with
    | num t =>
      obtain ⟨p, p1, p2⟩ := am t _ hx.2 ⟨_, e⟩
      have ok : a.ok t.ncols = true := by
        cases a with
        | scalar c => rfl
        | vec cs =>
          by_contra h
          have h : ¬cs.length = p.length := by simpa [Amt.ok, p1] using h
          rw [Amt.div, if_neg h] at p2
          cases p2
      simp only [InTr.applyB, ok, if_true]
      refine fin t _ hx fun x y h1 h2 => ?_
      cases a with
      | scalar c => simp [Amt.div, h1, h2]
      | vec cs =>
        have : cs.length = t.ncols := by simpa [Amt.ok] using ok
        simp [Amt.div, h1, h2, this]
    | fdd p x => cases e
    | tup xs => cases e
  | select ds =>
    cases x with
    | num t =>
      obtain ⟨p, p1, p2⟩ := am t _ hx.2 ⟨_, e⟩
      have ok : ∀ i ∈ ds, i < t.ncols := by
        intro i hi
        obtain ⟨q, hq⟩ := Option.isSome_iff_exists.1 p2
        obtain ⟨b, hb⟩ := mapM_each hq i hi
        rw [← p1]
        exact (List.getElem?_eq_some_iff.1 hb).1
      simp only [InTr.applyB]
      rw [if_pos ok]
      exact fin t _ hx fun x y h1 h2 => by simp
    | fdd p x => cases e
    | tup xs => cases e
  | map g =>
    cases x with
    | num t => exact fin t g hx fun x y h1 h2 => htr x y (h1.trans h2.symm)
    | fdd p x => cases e
    | tup xs => cases e
  | toFdd j =>
    cases x with
    | num t => exact ⟨_, rfl, hx⟩
    | fdd p x => exact ⟨_, rfl, hx⟩
    | tup xs => cases e

/-! ### Means and kernels return -/

/-- An evaluator for batches returns if an evaluator returns at all indices of the batch. -/
structure TotAt (s : List ℕ) (r : BEv) (r' : List ℕ → Ev) : Prop where
  M : ∀ {a x}, a.Is s → x.Is s → (OkAt s fun d => (r' d).M (a.at' d) (x.at' d)) → ∃ t n, r.M a x = some t ∧ t.shape = 1 :: n :: s
  K : ∀ {k x y}, k.Is s → x.Is s → y.Is s → (OkAt s fun d => (r' d).K (k.at' d) (x.at' d) (y.at' d)) → ∃ t p q, r.K k x y = some t ∧ t.shape = q :: p :: s
  D : ∀ {k x y}, k.Is s → x.Is s → y.Is s → (OkAt s fun d => (r' d).D (k.at' d) (x.at' d) (y.at' d)) → ∃ t n, r.D k x y = some t ∧ t.shape = 1 :: n :: s

theorem zipCol_inv {f : ℝ → ℝ → ℝ} {u v w : List ℝ} (h : zipCol f u v = some w) : u.length = v.length ∧ w.length = u.length := by
  unfold zipCol at h
  split at h
  · next e => cases h; exact ⟨e, by simp [e]⟩
  · cases h

theorem Mat.add_inv {A B C : Mat} (h : A.add B = some C) : A.r = B.r ∧ A.c = B.c ∧ C.r = A.r ∧ C.c = A.c := by
  unfold Mat.add at h
  split at h
  · next e => cases h; exact ⟨e.1, e.2, rfl, rfl⟩
  · cases h

theorem Mat.mul_inv {A B C : Mat} (h : A.mul B = some C) : A.r = B.r ∧ A.c = B.c ∧ C.r = A.r ∧ C.c = A.c := by
  unfold Mat.mul at h
  split at h
  · next e => cases h; exact ⟨e.1, e.2, rfl, rfl⟩
  · cases h

theorem Mat.sub_inv {A B C : Mat} (h : A.sub B = some C) : A.r = B.r ∧ A.c = B.c ∧ C.r = A.r ∧ C.c = A.c := by
  unfold Mat.sub at h
  split at h
  · next e => cases h; exact ⟨e.1, e.2, rfl, rfl⟩
  · cases h

theorem Mat.quad_inv {n : ℕ} {W : Matrix (Fin n) (Fin n) ℝ} {B C Q : Mat} (h : Mat.quad W B C = some Q) : B.r = n ∧ C.r = n ∧ Q.r = B.c ∧ Q.c = C.c := by
  unfold Mat.quad at h
  split at h
  · next e => cases h; exact ⟨e.1, e.2, rfl, rfl⟩
  · cases h

theorem Mat.quadDiag_inv {n : ℕ} {W : Matrix (Fin n) (Fin n) ℝ} {B C : Mat} {v : List ℝ} (h : Mat.quadDiag W B C = some v) :
    B.r = n ∧ C.r = n ∧ B.c = C.c ∧ v.length = B.c := by
  unfold Mat.quadDiag at h
  split at h
  · next e => cases h; exact ⟨e.1, e.2.1, e.2.2, by simp⟩
  · cases h

theorem Mat.tmulVec_inv {n : ℕ} {w : Fin n → ℝ} {B : Mat} {v : List ℝ} (h : Mat.tmulVec B w = some v) : B.r = n ∧ v.length = B.c := by
  unfold Mat.tmulVec at h
  split at h
  · next e => cases h; exact ⟨e, by simp⟩
  · cases h

section Kz
variable {r : BEv} {r' : List ℕ → Ev} (hr : SimAt s r r') (ht : TotAt s r r') {d0 : List ℕ} (h0 : In d0 s)
include hr ht

theorem K_res {k : BKExpr} {x y : BInput} (hk : k.Is s) (hx : x.Is s) (hy : y.Is s) (h : OkAt s fun d => (r' d).K (k.at' d) (x.at' d) (y.at' d)) :
    ∃ t p q, r.K k x y = some t ∧ t.shape = q :: p :: s ∧ ∀ d, In d s → ∀ A, (r' d).K (k.at' d) (x.at' d) (y.at' d) = some A → SameAt t p q d A := by
  obtain ⟨t, p, q, t1, t2⟩ := ht.K hk hx hy h
  obtain ⟨p', q', v, h1, h2, h3⟩ := hr.K hk.fits hx.fits hy.fits t1
  rw [t2] at h1
  cases h1
  refine ⟨t, p, q, t1, t2, fun d hd A hA => ?_⟩
  obtain ⟨A', e, hA'⟩ := h3 d hd
  cases hA.symm.trans e
  exact hA'

theorem M_res {a : BMExpr} {x : BInput} (ha : a.Is s) (hx : x.Is s) (h : OkAt s fun d => (r' d).M (a.at' d) (x.at' d)) :
    ∃ t n, r.M a x = some t ∧ t.shape = 1 :: n :: s ∧ ∀ d, In d s → ∀ v, (r' d).M (a.at' d) (x.at' d) = some v → v.length = n := by
  obtain ⟨t, n, t1, t2⟩ := ht.M ha hx h
  obtain ⟨n', v, h1, h2, h3⟩ := hr.M ha.fits hx.fits t1
  rw [t2] at h1
  cases h1
  refine ⟨t, n, t1, t2, fun d hd v hv => ?_⟩
  cases hv.symm.trans (h3 d hd)
  exact colList_length _ _ _

theorem D_res {k : BKExpr} {x y : BInput} (hk : k.Is s) (hx : x.Is s) (hy : y.Is s) (h : OkAt s fun d => (r' d).D (k.at' d) (x.at' d) (y.at' d)) :
    ∃ t n, r.D k x y = some t ∧ t.shape = 1 :: n :: s ∧ ∀ d, In d s → ∀ v, (r' d).D (k.at' d) (x.at' d) (y.at' d) = some v → v.length = n := by
  obtain ⟨t, n, t1, t2⟩ := ht.D hk hx hy h
  obtain ⟨n', v, h1, h2, h3⟩ := hr.D hk.fits hx.fits hy.fits t1
  rw [t2] at h1
  cases h1
  refine ⟨t, n, t1, t2, fun d hd v hv => ?_⟩
  cases hv.symm.trans (h3 d hd)
  exact colList_length _ _ _

include h0

theorem Kz_ok {kzz : BKExpr} {z : BInput} {noise : Ten ℝ} (hk : kzz.Is s) (hz : z.Is s) (hn : noise.MatIs s)
    (h : OkAt s fun d => stepKz (r' d) (kzz.at' d) (z.at' d) (noise.toMat d)) :
    ∃ K n, bstepKz r kzz z noise = some K ∧ K.shape = n :: n :: s ∧ ∀ d, In d s → ∀ A, stepKz (r' d) (kzz.at' d) (z.at' d) (noise.toMat d) = some A → SameAt K n n d A := by
  have H : ∀ d, In d s → ∃ A B, (r' d).K (kzz.at' d) (z.at' d) (z.at' d) = some A ∧ A.add (noise.toMat d) = some B ∧ B.r = B.c ∧ (B.sq B.r).PosDef := by
    intro d hd
    obtain ⟨C, hC⟩ := h d hd
    obtain ⟨A, hA, hC⟩ := Option.bind_eq_some_iff.1 hC
    obtain ⟨B, hB, hC⟩ := Option.bind_eq_some_iff.1 hC
    split at hC
    · next e => exact ⟨A, B, hA, hB, e⟩
    · cases hC
  obtain ⟨A, p, q, A1, A2, A3⟩ := K_res hr ht hk hz hz fun d hd => (H d hd).imp fun A h => h.choose_spec.1
  obtain ⟨rn, cn, b, n1, n2⟩ := hn
  obtain ⟨P, Q, P1, P2, P3, -⟩ := H d0 h0
  obtain ⟨P4, P5, -⟩ := A3 d0 h0 P P1
  obtain ⟨Q1, Q2, Q3, Q4⟩ := Mat.add_inv P2
  have e1 : rn = p := by rw [← P4, Q1, toMat, n1]; rfl
  have e2 : cn = q := by rw [← P5, Q2, toMat, n1]; rfl
  obtain rfl : p = q := by rw [← P4, ← P5, ← Q3, ← Q4, P3]
  subst e1 e2
  obtain ⟨K, K1, K2⟩ := bin_ok (f := (· + ·)) A2 n1 n2
  obtain ⟨-, -, -, hg⟩ := bin_inv A2 n1 K1 (.refl s) n2
  have hS : ∀ d, In d s → ∀ A' B, (r' d).K (kzz.at' d) (z.at' d) (z.at' d) = some A' → A'.add (noise.toMat d) = some B → SameAt K cn cn d B := by
    intro d hd A' B hA hB
    obtain ⟨a1, a2, a3⟩ := A3 d hd A' hA
    obtain ⟨q1, q2, q3, q4⟩ := Mat.add_inv hB
    refine ⟨q3.trans a1, q4.trans a2, fun i hi j hj => ?_⟩
    unfold Mat.add at hB
    rw [if_pos ⟨q1, q2⟩] at hB
    cases hB
    simp only
    rw [a3 i hi j hj, hg]
    rfl
  have e : bstepKz r kzz z noise = some K := by
    unfold bstepKz
    rw [A1]
    simp only [Option.bind_eq_bind, Option.bind_some]
    rw [K1]
    simp only [Option.bind_some]
    rw [K2]
    simp only
    refine if_pos ⟨rfl, fun d hd => ?_⟩
    obtain ⟨A', B, b1, b2, b3, b4⟩ := H d hd
    have := hS d hd A' B b1 b2
    obtain ⟨Br, Bc, Be⟩ := B
    have h' := this.sq
    obtain ⟨rfl, -⟩ := this
    rw [← h']
    exact b4
  refine ⟨K, cn, e, K2, fun d hd B hB => ?_⟩
  obtain ⟨A, hA, hC⟩ := Option.bind_eq_some_iff.1 hB
  obtain ⟨B', hB', hC⟩ := Option.bind_eq_some_iff.1 hC
  split at hC
  · cases hC
    exact hS d hd A B hA hB'
  · cases hC

theorem kx_ok {kxx : BKExpr} {o : BPseudo} {k : ℕ} (hk : kxx.Is s) (ho : o.Is s) (h : OkAt s fun d => stepKx (r' d) (kxx.at' d) (o.at' d) k) :
    ∃ v, bstepKx r kxx o k = some v := by
  have key : (OkAt s fun d => (do
        let w ← (r' d).D (kxx.at' d) (o.x.at' d) (o.x.at' d)
        if w.length = k then pure (fun j : Fin k => w.getD j 0) else none : Option (Fin k → ℝ))) → ∃ v, (do
      let v ← r.D kxx o.x o.x
      if v.shape.take 2 = [1, k] then pure v else none : Option (Ten ℝ)) = some v := by
    intro h
    have H : ∀ d, In d s → ∃ w, (r' d).D (kxx.at' d) (o.x.at' d) (o.x.at' d) = some w ∧ w.length = k := by
      intro d hd
      obtain ⟨C, hC⟩ := h d hd
      obtain ⟨w, hw, hC⟩ := Option.bind_eq_some_iff.1 hC
      split at hC
      · next e => exact ⟨w, hw, e⟩
      · cases hC
    obtain ⟨v, n, v1, v2, v3⟩ := D_res hr ht hk ho.x ho.x fun d hd => (H d hd).imp fun w h => h.1
    obtain ⟨w, w1, w2⟩ := H d0 h0
    obtain rfl := (v3 d0 h0 w w1).symm.trans w2
    exact ⟨v, by rw [v1]; simp [v2]⟩
  unfold stepKx at h
  unfold bstepKx
  obtain ⟨μ, z, nz, x, nx, b, y⟩ := o
  cases μ with
  | vfe => exact key h
  | fitc => exact key h
  | dtc => exact ⟨_, rfl⟩

theorem data_ok {kzz kzx kxx : BKExpr} {o : BPseudo} (h1 : kzz.Is s) (h2 : kzx.Is s) (h3 : kxx.Is s) (ho : o.Is s)
    (h : OkAt s fun d => stepIngredients (r' d) (kzz.at' d) (kzx.at' d) (kxx.at' d) (o.at' d)) :
    ∃ D n k, bstepData r kzz kzx kxx o = some D ∧ D.Sized n k s s ∧ D.mz.shape = [1, n] ∧ D.mx.shape = [1, k] ∧ D.y.shape = [1, k] ∧
      ∀ d, In d s → ∀ g, stepIngredients (r' d) (kzz.at' d) (kzx.at' d) (kxx.at' d) (o.at' d) = some g → g.n = n ∧ g.k = k := by
  have H : ∀ d, In d s → ∃ A B, stepKz (r' d) (kzz.at' d) (o.z.at' d) (o.noiseZ.toMat d) = some A ∧ (r' d).K (kzx.at' d) (o.z.at' d) (o.x.at' d) = some B ∧ B.r = A.r ∧
      (o.noiseX.toMat d).r = B.c ∧ (o.noiseX.toMat d).c = B.c ∧ ∃ kx, stepKx (r' d) (kxx.at' d) (o.at' d) B.c = some kx ∧
      ∀ j, 0 < knDiag o.method (A.sq A.r) (fun i j => B.e i j : Matrix (Fin A.r) (Fin B.c) ℝ) kx (fun j => (o.noiseX.toMat d).e j j) j := by
    intro d hd
    obtain ⟨C, hC⟩ := h d hd
    obtain ⟨A, hA, hC⟩ := Option.bind_eq_some_iff.1 hC
    obtain ⟨B, hB, hC⟩ := Option.bind_eq_some_iff.1 hC
    split at hC
    swap
    · cases hC
    next e =>
    obtain ⟨kx, hkx, hC⟩ := Option.bind_eq_some_iff.1 hC
    split at hC
    swap
    · cases hC
    next e' => exact ⟨A, B, hA, hB, e.1, e.2.1, e.2.2, kx, hkx, e'⟩
  obtain ⟨K, n, K1, K2, K3⟩ := Kz_ok hr ht h0 h1 ho.z ho.noiseZ fun d hd => (H d hd).imp fun A h => h.choose_spec.1
  obtain ⟨Z, n', k, Z1, Z2, Z3⟩ := K_res hr ht h2 ho.z ho.x fun d hd => by
    obtain ⟨A, B, -, hB, -⟩ := H d hd
    exact ⟨B, hB⟩
  obtain ⟨rn, cn, b, n1, n2⟩ := ho.noiseX
  have hsz : ∀ d, In d s → ∀ A B, stepKz (r' d) (kzz.at' d) (o.z.at' d) (o.noiseZ.toMat d) = some A → (r' d).K (kzx.at' d) (o.z.at' d) (o.x.at' d) = some B →
      A.r = n ∧ B.r = n' ∧ B.c = k := fun d hd A B hA hB => ⟨(K3 d hd A hA).1, (Z3 d hd B hB).1, (Z3 d hd B hB).2.1⟩
  obtain ⟨hn, hr', hc'⟩ : n' = n ∧ rn = k ∧ cn = k := by
    obtain ⟨A, B, hA, hB, e1, e2, e3, -⟩ := H d0 h0
    obtain ⟨f1, f2, f3⟩ := hsz d0 h0 A B hA hB
    refine ⟨by omega, ?_, ?_⟩
    · rw [← f3, ← e2, toMat, n1]; rfl
    · rw [← f3, ← e3, toMat, n1]; rfl
  rw [hr', hc'] at n1
  subst hn
  obtain ⟨noise, d1, d2, d3⟩ := diag_some n1
  obtain ⟨kx, hkx⟩ := kx_ok hr ht h0 (k := k) h3 ho fun d hd => by
    obtain ⟨A, B, hA, hB, e1, e2, e3, kx, hkx, -⟩ := H d hd
    obtain ⟨-, -, rfl⟩ := hsz d hd A B hA hB
    exact ⟨kx, hkx⟩
  obtain ⟨x1, x2⟩ := kx_at hr h3.fits ho.fits hkx
  have hD : BData.Sized ⟨K, Z, kx, noise, ⟨[1, k], fun _ => 0⟩, ⟨[1, n'], fun _ => 0⟩, ⟨[1, k], fun _ => 0⟩⟩ n' k s s :=
    ⟨K2, .refl s, ⟨s, Z2, .refl s⟩, x1, ⟨b, d2, n2⟩, ⟨[], rfl, .nil s⟩, ⟨[], rfl, .nil s⟩, ⟨[], rfl, .nil s⟩⟩
  have hKz : Mats s s K n' n' (K.mat n' n') := ⟨s, K2, .refl _, .refl _, fun _ => rfl⟩
  obtain ⟨Lz, L1, L2⟩ := hKz.on fun _ A => chol A
  obtain ⟨W, W1, W2⟩ := L2.solve (mats_of ⟨s, Z2, .refl s⟩)
  obtain ⟨Kn, tr, k1, ⟨sn, m1, -, m2, m3⟩, -⟩ := hD.noiseTrace o.method W2
  have hpos : ∀ i, List.Forall₂ (· < ·) i Kn.shape → 0 < Kn.e i := by
    intro i hi
    rw [m1] at hi
    cases hi with
    | @cons j _ i _ hj hi =>
    obtain ⟨d, hd, rfl⟩ := m2.onto h0 hi
    obtain ⟨A, B, hA, hB, e1, e2, e3, kx', hkx', hp⟩ := H d hd
    have sA := K3 d hd A hA
    have sB := Z3 d hd B hB
    obtain ⟨Ar, Ac, Ae⟩ := A
    obtain ⟨Br, Bc, Be⟩ := B
    have eA := sA.sq
    obtain ⟨rfl, -⟩ := sA
    obtain ⟨rfl, rfl, sB⟩ := sB
    cases hkx'.symm.trans (x2 d hd)
    have eB : (fun i j => Be i j : Matrix (Fin Br) (Fin Bc) ℝ) = Z.mat Br Bc d := by
      funext i j
      exact sB i i.2 j j.2
    have eN : (fun j : Fin Bc => (o.noiseX.toMat d).e j j) = fun j : Fin Bc => noise.get ((j : ℕ) :: d) := by
      funext j
      rw [d3]
      rfl
    have := hp ⟨j, hj⟩
    simp only at this
    rw [eA, eB, eN] at this
    refine lt_of_lt_of_eq this (Eq.trans (m3 d ⟨j, hj⟩).symm ?_)
    rw [Ten.get, m1, clip]
    congr 2
    simp only
    have hj' : j < Bc := hj
    split <;> omega
  have e : bstepData r kzz kzx kxx o = some ⟨K, Z, kx, noise, ⟨[1, k], fun _ => 0⟩, ⟨[1, n'], fun _ => 0⟩, ⟨[1, k], fun _ => 0⟩⟩ := by
    unfold bstepData
    rw [K1]
    simp only [Option.bind_eq_bind, Option.bind_some]
    rw [Z1]
    simp only [Option.bind_some]
    rw [d1]
    simp only [Option.bind_some]
    rw [K2, Z2, d2]
    simp only [and_self, if_true]
    rw [hkx]
    simp only [Option.bind_some]
    rw [L1]
    simp only [Option.bind_some]
    rw [W1]
    simp only [Option.bind_some]
    rw [k1]
    simp only [Option.bind_some]
    exact if_pos hpos
  refine ⟨_, n', k, e, hD, rfl, rfl, rfl, fun d hd g hg => ?_⟩
  obtain ⟨n2', k2', bz, s1, -, -, -, s2⟩ := data_at hr h1.fits h2.fits h3.fits ho.fits e
  cases hg.symm.trans (s2 d hd)
  have q1 := s1.Kz
  obtain ⟨v, q2, -⟩ := s1.Kzx
  rw [show Ten.shape _ = _ from K2] at q1
  rw [show Ten.shape _ = _ from Z2] at q2
  cases q1
  cases q2
  exact ⟨rfl, rfl⟩

end Kz

theorem is_fdds {ps : List PId} {x : BInput} (hp : ps ≠ []) (hx : x.Is s) : (BInput.tup (ps.map (.fdd · x))).Is s := by
  refine ⟨by simpa using hp, BInput.isL_iff.2 fun y hy => ?_⟩
  obtain ⟨p, _, rfl⟩ := List.mem_map.1 hy
  exact hx

section Step
variable {lm : MId → PId → Option BMExpr} {lk : MId → PId → PId → Option BKExpr} {r : BEv} {r' : List ℕ → Ev} (hr : SimAt s r r') (ht : TotAt s r r')
  {d0 : List ℕ} (h0 : In d0 s) (hlm : ∀ m p a, lm m p = some a → a.Is s) (hlk : ∀ m p q k, lk m p q = some k → k.Is s)
include hr ht h0 hlm

theorem fn_ok {f : Fn} {x : BInput} (hx : x.Is s) (h : OkAt s fun d => stepFn (lmAt lm d) (r' d) f (x.at' d)) :
    ∃ t n b, bstepFn lm r f x = some t ∧ t.shape = 1 :: n :: b ∧ Ten.Fits b s ∧ (¬f.IsConst → b = s) ∧
      ∀ d, In d s → ∀ v, stepFn (lmAt lm d) (r' d) f (x.at' d) = some v → v.length = n := by
  suffices h : ∃ t n b, bstepFn lm r f x = some t ∧ t.shape = 1 :: n :: b ∧ Ten.Fits b s ∧ (¬f.IsConst → b = s) by
    obtain ⟨t, n, b, t1, t2, t3, t4⟩ := h
    refine ⟨t, n, b, t1, t2, t3, t4, fun d hd v hv => ?_⟩
    obtain ⟨n', v', h1, h2, h3⟩ := fn_at hr (fun m p a h => (hlm m p a h).fits) hx.fits t1
    rw [t2] at h1
    cases h1
    cases hv.symm.trans (h3 d hd)
    exact colList_length _ _ _
  cases f with
  | user f =>
    cases x with
    | num x => exact ⟨_, _, _, rfl, rfl, by rw [hx.1]; exact .refl s, fun _ => hx.1⟩
    | fdd p x =>
      obtain ⟨a, ha⟩ := h d0 h0
      cases ha
    | tup xs =>
      obtain ⟨a, ha⟩ := h d0 h0
      cases ha
  | const c => exact ⟨_, _, _, rfl, rfl, .nil s, fun h => absurd trivial h⟩
  | meanOf m p =>
    have H : ∀ d, In d s → ∃ a v, lm m p = some a ∧ (r' d).M (a.at' d) (x.at' d) = some v := by
      intro d hd
      obtain ⟨v, hv⟩ := h d hd
      obtain ⟨a, ha, hv⟩ := Option.bind_eq_some_iff.1 hv
      obtain ⟨b, hb, rfl⟩ := Option.map_eq_some_iff.1 ha
      exact ⟨b, v, hb, hv⟩
    obtain ⟨a, -, ha, -⟩ := H d0 h0
    obtain ⟨t, n, t1, t2⟩ := ht.M (hlm m p a ha) hx fun d hd => by
      obtain ⟨b, v, hb, hv⟩ := H d hd
      cases ha.symm.trans hb
      exact ⟨v, hv⟩
    exact ⟨t, n, s, by rw [bstepFn, ha]; exact t1, t2, .refl s, fun _ => rfl⟩

include hlk

theorem KAtom_ok {k : BKExpr} {x y : BInput} (hk : k.Is s) (hx : x.Is s) (hy : y.Is s)
    (h : OkAt s fun d => stepKAtom (lmAt lm d) (lkAt lk d) (r' d) (k.at' d) (x.at' d) (y.at' d)) :
    ∃ t p q, bstepKAtom lm lk r k x y = some t ∧ t.shape = q :: p :: s := by
  have none' : ∀ {P : Prop}, stepKAtom (lmAt lm d0) (lkAt lk d0) (r' d0) (k.at' d0) (x.at' d0) (y.at' d0) = none → P := fun e => by
    obtain ⟨a, ha⟩ := h d0 h0
    simp only [e] at ha
    cases ha
  cases k with
  | prim k =>
    cases x with
    | num x =>
      cases y with
      | num y => exact ⟨_, _, _, by simp only [bstepKAtom, hx.1, hy.1, bcast_self, Option.map_some]; rfl, rfl⟩
      | fdd q y => exact none' rfl
      | tup ys => exact none' rfl
    | fdd p x => exact none' rfl
    | tup xs => exact none' rfl
  | zero => exact ⟨_, _, _, by simp only [bstepKAtom, hx.batch, hy.batch, Option.bind_eq_bind, Option.bind_some, bcast_self, Option.pure_def]; rfl, rfl⟩
  | mok m ps =>
    cases x with
    | num x =>
      cases y with
      | num y => exact ht.K (k := .mok m ps) hk (is_fdds hk hx) (is_fdds hk hy) fun d hd => by beta_reduce; rw [at_fdds, at_fdds]; exact h d hd
      | fdd q y => exact ht.K (k := .mok m ps) hk (is_fdds hk hx) (y := .tup [.fdd q y]) ⟨by simp, hy, trivial⟩ fun d hd => by beta_reduce; rw [at_fdds]; exact h d hd
      | tup ys => exact none' rfl
    | fdd p x =>
      cases y with
      | num y => exact ht.K (k := .mok m ps) hk (x := .tup [.fdd p x]) ⟨by simp, hx, trivial⟩ (is_fdds hk hy) fun d hd => by beta_reduce; rw [at_fdds]; exact h d hd
      | fdd q y =>
        have H : ∀ d, In d s → ∃ a A, lk m p q = some a ∧ (r' d).K (a.at' d) (x.at' d) (y.at' d) = some A := by
          intro d hd
          obtain ⟨v, hv⟩ := h d hd
          obtain ⟨a, ha, hv⟩ := Option.bind_eq_some_iff.1 hv
          obtain ⟨b, hb, rfl⟩ := Option.map_eq_some_iff.1 ha
          exact ⟨b, v, hb, hv⟩
        obtain ⟨a, -, ha, -⟩ := H d0 h0
        obtain ⟨t, n, n', t1, t2⟩ := ht.K (x := x) (y := y) (hlk m p q a ha) hx hy fun d hd => by
          obtain ⟨b, v, hb, hv⟩ := H d hd
          cases ha.symm.trans hb
          exact ⟨v, hv⟩
        exact ⟨t, n, n', by rw [bstepKAtom, ha]; exact t1, t2⟩
      | tup ys => exact none' rfl
    | tup xs => exact none' rfl
  | adk k => exact ht.K (k := k) hk hx hy h
  | add a b =>
    have H : ∀ d, In d s → ∃ A B C, (r' d).K (a.at' d) (x.at' d) (y.at' d) = some A ∧ (r' d).K (b.at' d) (x.at' d) (y.at' d) = some B ∧ A.add B = some C := by
      intro d hd
      obtain ⟨C, hC⟩ := h d hd
      obtain ⟨A, hA, hC⟩ := Option.bind_eq_some_iff.1 hC
      obtain ⟨B, hB, hC⟩ := Option.bind_eq_some_iff.1 hC
      exact ⟨A, B, C, hA, hB, hC⟩
    obtain ⟨A, p, q, A1, A2, A3⟩ := K_res hr ht hk.1 hx hy fun d hd => (H d hd).imp fun A ⟨_, _, h, _⟩ => h
    obtain ⟨B, p', q', B1, B2, B3⟩ := K_res hr ht hk.2 hx hy fun d hd => let ⟨_, B, _, _, h, _⟩ := H d hd; ⟨B, h⟩
    obtain ⟨P, Q, C, P1, Q1, C1⟩ := H d0 h0
    obtain ⟨e1, e2, -⟩ := Mat.add_inv C1
    obtain ⟨rfl, rfl, -⟩ := A3 d0 h0 P P1
    obtain ⟨rfl, rfl, -⟩ := B3 d0 h0 Q Q1
    obtain ⟨t, t1, t2⟩ := bin_ok (f := (· + ·)) A2 (by rw [B2, e1, e2]) (.refl s)
    exact ⟨t, _, _, by simp only [bstepKAtom, A1, B1, Option.bind_eq_bind, Option.bind_some, t1], t2⟩
  | mul a b =>
    have H : ∀ d, In d s → ∃ A B C, (r' d).K (a.at' d) (x.at' d) (y.at' d) = some A ∧ (r' d).K (b.at' d) (x.at' d) (y.at' d) = some B ∧ A.mul B = some C := by
      intro d hd
      obtain ⟨C, hC⟩ := h d hd
      obtain ⟨A, hA, hC⟩ := Option.bind_eq_some_iff.1 hC
      obtain ⟨B, hB, hC⟩ := Option.bind_eq_some_iff.1 hC
      exact ⟨A, B, C, hA, hB, hC⟩
    obtain ⟨A, p, q, A1, A2, A3⟩ := K_res hr ht hk.1 hx hy fun d hd => (H d hd).imp fun A ⟨_, _, h, _⟩ => h
    obtain ⟨B, p', q', B1, B2, B3⟩ := K_res hr ht hk.2 hx hy fun d hd => let ⟨_, B, _, _, h, _⟩ := H d hd; ⟨B, h⟩
    obtain ⟨P, Q, C, P1, Q1, C1⟩ := H d0 h0
    obtain ⟨e1, e2, -⟩ := Mat.mul_inv C1
    obtain ⟨rfl, rfl, -⟩ := A3 d0 h0 P P1
    obtain ⟨rfl, rfl, -⟩ := B3 d0 h0 Q Q1
    obtain ⟨t, t1, t2⟩ := bin_ok (f := (· * ·)) A2 (by rw [B2, e1, e2]) (.refl s)
    exact ⟨t, _, _, by simp only [bstepKAtom, A1, B1, Option.bind_eq_bind, Option.bind_some, t1], t2⟩
  | scale c k =>
    obtain ⟨A, p, q, A1, A2⟩ := ht.K (k := k) hk hx hy fun d hd => by
      obtain ⟨C, hC⟩ := h d hd
      obtain ⟨A, hA, -⟩ := Option.map_eq_some_iff.1 hC
      exact ⟨A, hA⟩
    exact ⟨Ten.map (c * ·) A, p, q, by simp only [bstepKAtom, A1, Option.map_some], A2⟩
  | tprod f g =>
    have H : ∀ d, In d s → ∃ v w, stepFn (lmAt lm d) (r' d) f (x.at' d) = some v ∧ stepFn (lmAt lm d) (r' d) g (y.at' d) = some w := by
      intro d hd
      obtain ⟨C, hC⟩ := h d hd
      obtain ⟨v, hv, hC⟩ := Option.bind_eq_some_iff.1 hC
      obtain ⟨w, hw, hC⟩ := Option.bind_eq_some_iff.1 hC
      exact ⟨v, w, hv, hw⟩
    obtain ⟨a, n, b, a1, a2, a3, a4, -⟩ := fn_ok hr ht h0 hlm hx fun d hd => (H d hd).imp fun v ⟨_, h, _⟩ => h
    obtain ⟨a', n', b', a1', a2', a3', a4', -⟩ := fn_ok hr ht h0 hlm hy fun d hd => let ⟨_, w, _, h⟩ := H d hd; ⟨w, h⟩
    obtain ⟨c, c1, c2, -⟩ := tr_some a2'
    have hb : bcast b b' = some s := by
      by_cases hf : f.IsConst
      · rw [a4' fun hg => hk ⟨hf, hg⟩]
        exact a3
      · rw [a4 hf, bcast_comm]
        exact a3'
    obtain ⟨p, p1, p2, -⟩ := mul_some a2 c2 hb
    exact ⟨p, _, _, by simp only [bstepKAtom, a1, a1', c1, Option.bind_eq_bind, Option.bind_some, p1], p2⟩
  | rev k =>
    obtain ⟨A, p, q, A1, A2⟩ := ht.K (k := k) hk hy hx fun d hd => by
      obtain ⟨C, hC⟩ := h d hd
      obtain ⟨A, hA, -⟩ := Option.map_eq_some_iff.1 hC
      exact ⟨A, hA⟩
    obtain ⟨t, t1, t2, -⟩ := tr_some A2
    exact ⟨t, _, _, by simp only [bstepKAtom, A1, Option.bind_eq_bind, Option.bind_some, t1], t2⟩
  | pre tx ty k =>
    have H : ∀ d, In d s → ∃ x' y' A, tx.apply (x.at' d) = some x' ∧ ty.apply (y.at' d) = some y' ∧ (r' d).K (k.at' d) x' y' = some A := by
      intro d hd
      obtain ⟨C, hC⟩ := h d hd
      obtain ⟨A, hA, hC⟩ := Option.bind_eq_some_iff.1 hC
      obtain ⟨B, hB, hC⟩ := Option.bind_eq_some_iff.1 hC
      exact ⟨A, B, C, hA, hB, hC⟩
    obtain ⟨x', x1, x2⟩ := applyB_ok h0 hk.1 hx fun d hd => (H d hd).imp fun A ⟨_, _, h, _⟩ => h
    obtain ⟨y', y1, y2⟩ := applyB_ok h0 hk.2.1 hy fun d hd => let ⟨_, B, _, _, h, _⟩ := H d hd; ⟨B, h⟩
    obtain ⟨-, g1⟩ := applyB_at x1 hx.fits
    obtain ⟨-, g2⟩ := applyB_at y1 hy.fits
    obtain ⟨A, p, q, A1, A2⟩ := ht.K (k := k) hk.2.2 x2 y2 fun d hd => by
      obtain ⟨_, _, A, e1, e2, e3⟩ := H d hd
      cases e1.symm.trans (g1 d hd)
      cases e2.symm.trans (g2 d hd)
      exact ⟨A, e3⟩
    exact ⟨A, p, q, by simp only [bstepKAtom, x1, y1, Option.bind_eq_bind, Option.bind_some, A1], A2⟩
  | post kij kzi kzj z kzz noise =>
    obtain ⟨k1, k2, k3, k4, k5, k6⟩ := hk
    have H : ∀ d, In d s → ∃ A K B C Q R, (r' d).K (kij.at' d) (x.at' d) (y.at' d) = some A ∧ stepKz (r' d) (kzz.at' d) (z.at' d) (noise.toMat d) = some K ∧
        (r' d).K (kzi.at' d) (z.at' d) (x.at' d) = some B ∧ (r' d).K (kzj.at' d) (z.at' d) (y.at' d) = some C ∧ Mat.quad (K.sq K.r)⁻¹ B C = some Q ∧ A.sub Q = some R := by
      intro d hd
      obtain ⟨R, hR⟩ := h d hd
      obtain ⟨A, hA, hR⟩ := Option.bind_eq_some_iff.1 hR
      obtain ⟨K, hK, hR⟩ := Option.bind_eq_some_iff.1 hR
      obtain ⟨B, hB, hR⟩ := Option.bind_eq_some_iff.1 hR
      obtain ⟨C, hC, hR⟩ := Option.bind_eq_some_iff.1 hR
      obtain ⟨Q, hQ, hR⟩ := Option.bind_eq_some_iff.1 hR
      exact ⟨A, K, B, C, Q, R, hA, hK, hB, hC, hQ, hR⟩
    obtain ⟨A, p, q, A1, A2, A3⟩ := K_res hr ht k1 hx hy fun d hd => let ⟨A, _, _, _, _, _, h, _⟩ := H d hd; ⟨A, h⟩
    obtain ⟨K, n, K1, K2, K3⟩ := Kz_ok hr ht h0 k5 k4 k6 fun d hd => let ⟨_, K, _, _, _, _, _, h, _⟩ := H d hd; ⟨K, h⟩
    obtain ⟨B, bn, bp, B1, B2, B3⟩ := K_res hr ht k2 k4 hx fun d hd => let ⟨_, _, B, _, _, _, _, _, h, _⟩ := H d hd; ⟨B, h⟩
    obtain ⟨C, cn, cp, C1, C2, C3⟩ := K_res hr ht k3 k4 hy fun d hd => let ⟨_, _, _, C, _, _, _, _, _, h, _⟩ := H d hd; ⟨C, h⟩
    obtain ⟨A', K', B', C', Q', R', a1, a2, a3, a4, a5, a6⟩ := H d0 h0
    obtain ⟨q1, q2, q3, q4⟩ := Mat.quad_inv a5
    obtain ⟨s1, s2, -⟩ := Mat.sub_inv a6
    obtain ⟨rfl, rfl, -⟩ := A3 d0 h0 A' a1
    obtain ⟨rfl, -⟩ := K3 d0 h0 K' a2
    obtain ⟨rfl, rfl, -⟩ := B3 d0 h0 B' a3
    obtain ⟨rfl, rfl, -⟩ := C3 d0 h0 C' a4
    obtain ⟨Q, Q1, Q2⟩ := iqf_ok K2 (by rw [B2, q1]) (by rw [C2, q2])
    obtain ⟨t, t1, t2⟩ := bin_ok (f := (· - ·)) A2 (by rw [Q2, s1, s2, q3, q4]) (.refl s)
    exact ⟨t, _, _, by simp only [bstepKAtom, A1, K1, B1, C1, Q1, Option.bind_eq_bind, Option.bind_some, t1], t2⟩
  | pseudo kij kzi kzj kzz kzx kxx o =>
    obtain ⟨k1, k2, k3, k4, k5, k6, k7⟩ := hk
    have H : ∀ d, In d s → ∃ A g B C Q P S R, (r' d).K (kij.at' d) (x.at' d) (y.at' d) = some A ∧
        stepIngredients (r' d) (kzz.at' d) (kzx.at' d) (kxx.at' d) (o.at' d) = some g ∧ (r' d).K (kzi.at' d) (o.z.at' d) (x.at' d) = some B ∧
        (r' d).K (kzj.at' d) (o.z.at' d) (y.at' d) = some C ∧ Mat.quad g.Kz⁻¹ B C = some Q ∧ A.sub Q = some P ∧ Mat.quad (g.A (o.at' d))⁻¹ B C = some S ∧ P.add S = some R := by
      intro d hd
      obtain ⟨R, hR⟩ := h d hd
      obtain ⟨A, hA, hR⟩ := Option.bind_eq_some_iff.1 hR
      obtain ⟨K, hK, hR⟩ := Option.bind_eq_some_iff.1 hR
      obtain ⟨B, hB, hR⟩ := Option.bind_eq_some_iff.1 hR
      obtain ⟨C, hC, hR⟩ := Option.bind_eq_some_iff.1 hR
      obtain ⟨Q, hQ, hR⟩ := Option.bind_eq_some_iff.1 hR
      obtain ⟨P, hP, hR⟩ := Option.bind_eq_some_iff.1 hR
      obtain ⟨S, hS, hR⟩ := Option.bind_eq_some_iff.1 hR
      exact ⟨A, K, B, C, Q, P, S, R, hA, hK, hB, hC, hQ, hP, hS, hR⟩
    obtain ⟨A, p, q, A1, A2, A3⟩ := K_res hr ht k1 hx hy fun d hd => let ⟨A, _, _, _, _, _, _, _, h, _⟩ := H d hd; ⟨A, h⟩
    obtain ⟨D, n, k, D1, D2, -, -, -, D3⟩ := data_ok hr ht h0 k4 k5 k6 k7 fun d hd => let ⟨_, K, _, _, _, _, _, _, _, h, _⟩ := H d hd; ⟨K, h⟩
    obtain ⟨B, bn, bp, B1, B2, B3⟩ := K_res hr ht k2 k7.z hx fun d hd => let ⟨_, _, B, _, _, _, _, _, _, _, h, _⟩ := H d hd; ⟨B, h⟩
    obtain ⟨C, cn, cp, C1, C2, C3⟩ := K_res hr ht k3 k7.z hy fun d hd => let ⟨_, _, _, C, _, _, _, _, _, _, _, h, _⟩ := H d hd; ⟨C, h⟩
    obtain ⟨R, r1, ⟨sA, r2, r3, r4⟩, -⟩ := BData.C70_compute o.method D2
    rw [r4.antisymm r3] at r2
    obtain ⟨A', K', B', C', Q', P', S', R', a1, a2, a3, a4, a5, a6, a7, a8⟩ := H d0 h0
    obtain ⟨q1, q2, q3, q4⟩ := Mat.quad_inv a5
    obtain ⟨s1, s2, s3, s4⟩ := Mat.sub_inv a6
    obtain ⟨-, -, u3, u4⟩ := Mat.quad_inv a7
    obtain ⟨v1, v2, -⟩ := Mat.add_inv a8
    obtain ⟨rfl, rfl, -⟩ := A3 d0 h0 A' a1
    obtain ⟨rfl, -⟩ := D3 d0 h0 K' a2
    obtain ⟨rfl, rfl, -⟩ := B3 d0 h0 B' a3
    obtain ⟨rfl, rfl, -⟩ := C3 d0 h0 C' a4
    have hB : B.shape = B'.c :: K'.n :: s := by rw [B2, q1]
    have hC : C.shape = C'.c :: K'.n :: s := by rw [C2, q2]
    obtain ⟨Q, Q1, Q2⟩ := iqf_ok D2.Kz hB hC
    obtain ⟨S, S1, S2⟩ := iqf_ok r2 hB hC
    obtain ⟨P, P1, P2⟩ := bin_ok (f := (· - ·)) A2 (by rw [Q2, s1, s2, q3, q4]) (.refl s)
    obtain ⟨t, t1, t2⟩ := bin_ok (f := (· + ·)) P2 (by rw [S2, s1, s2, q3, q4]) (.refl s)
    exact ⟨t, _, _, by simp only [bstepKAtom, A1, D1, B1, C1, Q1, P1, r1, S1, Option.bind_eq_bind, Option.bind_some, t1], t2⟩

theorem DAtom_ok {k : BKExpr} {x y : BInput} (hk : k.Is s) (hx : x.Is s) (hy : y.Is s)
    (h : OkAt s fun d => stepDAtom (lmAt lm d) (lkAt lk d) (r' d) (k.at' d) (x.at' d) (y.at' d)) :
    ∃ t n, bstepDAtom lm lk r k x y = some t ∧ t.shape = 1 :: n :: s := by
  have none' : ∀ {P : Prop}, stepDAtom (lmAt lm d0) (lkAt lk d0) (r' d0) (k.at' d0) (x.at' d0) (y.at' d0) = none → P := fun e => by
    obtain ⟨a, ha⟩ := h d0 h0
    simp only [e] at ha
    cases ha
  cases k with
  | prim k =>
    cases x with
    | num x =>
      cases y with
      | num y =>
        have e : x.nrows = y.nrows := by
          obtain ⟨a, ha⟩ := h d0 h0
          simp only [BKExpr.at', BInput.at', stepDAtom] at ha
          split at ha
          · next e => simpa using e
          · cases ha
        exact ⟨_, _, by simp only [bstepDAtom, hx.1, hy.1, bcast_self, Option.map_some, e, if_true]; rfl, rfl⟩
      | fdd q y => exact none' rfl
      | tup ys => exact none' rfl
    | fdd p x => exact none' rfl
    | tup xs => exact none' rfl
  | zero =>
    have e : x.size = y.size := by
      obtain ⟨a, ha⟩ := h d0 h0
      simp only [BKExpr.at', stepDAtom, BInput.size_at] at ha
      split at ha
      · next e => exact e
      · cases ha
    exact ⟨_, _, by simp only [bstepDAtom, hx.batch, hy.batch, Option.bind_eq_bind, Option.bind_some, bcast_self, Option.pure_def, e, if_true]; rfl, rfl⟩
  | mok m ps =>
    cases x with
    | num x =>
      cases y with
      | num y => exact ht.D (k := .mok m ps) hk (is_fdds hk hx) (is_fdds hk hy) fun d hd => by beta_reduce; rw [at_fdds, at_fdds]; exact h d hd
      | fdd q y => exact none' rfl
      | tup ys => exact none' rfl
    | fdd p x =>
      cases y with
      | num y => exact none' rfl
      | fdd q y =>
        have H : ∀ d, In d s → ∃ a A, lk m p q = some a ∧ (r' d).D (a.at' d) (x.at' d) (y.at' d) = some A := by
          intro d hd
          obtain ⟨v, hv⟩ := h d hd
          obtain ⟨a, ha, hv⟩ := Option.bind_eq_some_iff.1 hv
          obtain ⟨b, hb, rfl⟩ := Option.map_eq_some_iff.1 ha
          exact ⟨b, v, hb, hv⟩
        obtain ⟨a, -, ha, -⟩ := H d0 h0
        obtain ⟨t, n, t1, t2⟩ := ht.D (x := x) (y := y) (hlk m p q a ha) hx hy fun d hd => by
          obtain ⟨b, v, hb, hv⟩ := H d hd
          cases ha.symm.trans hb
          exact ⟨v, hv⟩
        exact ⟨t, n, by rw [bstepDAtom, ha]; exact t1, t2⟩
      | tup ys => exact none' rfl
    | tup xs => exact none' rfl
  | adk k => exact ht.D (k := k) hk hx hy h
  | add a b =>
    have H : ∀ d, In d s → ∃ A B C, (r' d).D (a.at' d) (x.at' d) (y.at' d) = some A ∧ (r' d).D (b.at' d) (x.at' d) (y.at' d) = some B ∧ zipCol (· + ·) A B = some C := by
      intro d hd
      obtain ⟨C, hC⟩ := h d hd
      obtain ⟨A, hA, hC⟩ := Option.bind_eq_some_iff.1 hC
      obtain ⟨B, hB, hC⟩ := Option.bind_eq_some_iff.1 hC
      exact ⟨A, B, C, hA, hB, hC⟩
    obtain ⟨A, p, A1, A2, A3⟩ := D_res hr ht hk.1 hx hy fun d hd => (H d hd).imp fun A ⟨_, _, h, _⟩ => h
    obtain ⟨B, p', B1, B2, B3⟩ := D_res hr ht hk.2 hx hy fun d hd => let ⟨_, B, _, _, h, _⟩ := H d hd; ⟨B, h⟩
    obtain ⟨P, Q, C, P1, Q1, C1⟩ := H d0 h0
    obtain ⟨e1, -⟩ := zipCol_inv C1
    obtain rfl := A3 d0 h0 P P1
    obtain rfl := B3 d0 h0 Q Q1
    obtain ⟨t, t1, t2⟩ := bin_ok (f := (· + ·)) A2 (by rw [B2, e1]) (.refl s)
    exact ⟨t, _, by simp only [bstepDAtom, A1, B1, Option.bind_eq_bind, Option.bind_some, t1], t2⟩
  | mul a b =>
    have H : ∀ d, In d s → ∃ A B C, (r' d).D (a.at' d) (x.at' d) (y.at' d) = some A ∧ (r' d).D (b.at' d) (x.at' d) (y.at' d) = some B ∧ zipCol (· * ·) A B = some C := by
      intro d hd
      obtain ⟨C, hC⟩ := h d hd
      obtain ⟨A, hA, hC⟩ := Option.bind_eq_some_iff.1 hC
      obtain ⟨B, hB, hC⟩ := Option.bind_eq_some_iff.1 hC
      exact ⟨A, B, C, hA, hB, hC⟩
    obtain ⟨A, p, A1, A2, A3⟩ := D_res hr ht hk.1 hx hy fun d hd => (H d hd).imp fun A ⟨_, _, h, _⟩ => h
    obtain ⟨B, p', B1, B2, B3⟩ := D_res hr ht hk.2 hx hy fun d hd => let ⟨_, B, _, _, h, _⟩ := H d hd; ⟨B, h⟩
    obtain ⟨P, Q, C, P1, Q1, C1⟩ := H d0 h0
    obtain ⟨e1, -⟩ := zipCol_inv C1
    obtain rfl := A3 d0 h0 P P1
    obtain rfl := B3 d0 h0 Q Q1
    obtain ⟨t, t1, t2⟩ := bin_ok (f := (· * ·)) A2 (by rw [B2, e1]) (.refl s)
    exact ⟨t, _, by simp only [bstepDAtom, A1, B1, Option.bind_eq_bind, Option.bind_some, t1], t2⟩
  | scale c k =>
    obtain ⟨A, p, A1, A2⟩ := ht.D (k := k) hk hx hy fun d hd => by
      obtain ⟨C, hC⟩ := h d hd
      obtain ⟨A, hA, -⟩ := Option.map_eq_some_iff.1 hC
      exact ⟨A, hA⟩
    exact ⟨Ten.map (c * ·) A, p, by simp only [bstepDAtom, A1, Option.map_some], A2⟩
  | tprod f g =>
    have H : ∀ d, In d s → ∃ v w C, stepFn (lmAt lm d) (r' d) f (x.at' d) = some v ∧ stepFn (lmAt lm d) (r' d) g (y.at' d) = some w ∧ zipCol (· * ·) v w = some C := by
      intro d hd
      obtain ⟨C, hC⟩ := h d hd
      obtain ⟨v, hv, hC⟩ := Option.bind_eq_some_iff.1 hC
      obtain ⟨w, hw, hC⟩ := Option.bind_eq_some_iff.1 hC
      exact ⟨v, w, C, hv, hw, hC⟩
    obtain ⟨a, n, b, a1, a2, a3, a4, a5⟩ := fn_ok hr ht h0 hlm hx fun d hd => (H d hd).imp fun v ⟨_, _, h, _⟩ => h
    obtain ⟨a', n', b', a1', a2', a3', a4', a5'⟩ := fn_ok hr ht h0 hlm hy fun d hd => let ⟨_, w, _, _, h, _⟩ := H d hd; ⟨w, h⟩
    obtain ⟨P, Q, C, P1, Q1, C1⟩ := H d0 h0
    obtain ⟨e1, -⟩ := zipCol_inv C1
    obtain rfl := a5 d0 h0 P P1
    obtain rfl := a5' d0 h0 Q Q1
    rw [← e1] at a2'
    have key : ∃ t, bin (· * ·) a a' = some t ∧ t.shape = 1 :: P.length :: s := by
      by_cases hf : f.IsConst
      · rw [a4' fun hg => hk ⟨hf, hg⟩] at a2'
        exact bin_ok' a2 a2' a3
      · rw [a4 hf] at a2
        exact bin_ok a2 a2' a3'
    obtain ⟨t, t1, t2⟩ := key
    exact ⟨t, _, by simp only [bstepDAtom, a1, a1', Option.bind_eq_bind, Option.bind_some, t1], t2⟩
  | rev k => exact ht.D (k := k) hk hy hx h
  | pre tx ty k =>
    have H : ∀ d, In d s → ∃ x' y' A, tx.apply (x.at' d) = some x' ∧ ty.apply (y.at' d) = some y' ∧ (r' d).D (k.at' d) x' y' = some A := by
      intro d hd
      obtain ⟨C, hC⟩ := h d hd
      obtain ⟨A, hA, hC⟩ := Option.bind_eq_some_iff.1 hC
      obtain ⟨B, hB, hC⟩ := Option.bind_eq_some_iff.1 hC
      exact ⟨A, B, C, hA, hB, hC⟩
    obtain ⟨x', x1, x2⟩ := applyB_ok h0 hk.1 hx fun d hd => (H d hd).imp fun A ⟨_, _, h, _⟩ => h
    obtain ⟨y', y1, y2⟩ := applyB_ok h0 hk.2.1 hy fun d hd => let ⟨_, B, _, _, h, _⟩ := H d hd; ⟨B, h⟩
    obtain ⟨-, g1⟩ := applyB_at x1 hx.fits
    obtain ⟨-, g2⟩ := applyB_at y1 hy.fits
    obtain ⟨A, p, A1, A2⟩ := ht.D (k := k) hk.2.2 x2 y2 fun d hd => by
      obtain ⟨_, _, A, e1, e2, e3⟩ := H d hd
      cases e1.symm.trans (g1 d hd)
      cases e2.symm.trans (g2 d hd)
      exact ⟨A, e3⟩
    exact ⟨A, p, by simp only [bstepDAtom, x1, y1, Option.bind_eq_bind, Option.bind_some, A1], A2⟩
  | post kij kzi kzj z kzz noise =>
    obtain ⟨k1, k2, k3, k4, k5, k6⟩ := hk
    have H : ∀ d, In d s → ∃ A K B C Q R, (r' d).D (kij.at' d) (x.at' d) (y.at' d) = some A ∧ stepKz (r' d) (kzz.at' d) (z.at' d) (noise.toMat d) = some K ∧
        (r' d).K (kzi.at' d) (z.at' d) (x.at' d) = some B ∧ (r' d).K (kzj.at' d) (z.at' d) (y.at' d) = some C ∧ Mat.quadDiag (K.sq K.r)⁻¹ B C = some Q ∧
        zipCol (· - ·) A Q = some R := by
      intro d hd
      obtain ⟨R, hR⟩ := h d hd
      obtain ⟨A, hA, hR⟩ := Option.bind_eq_some_iff.1 hR
      obtain ⟨K, hK, hR⟩ := Option.bind_eq_some_iff.1 hR
      obtain ⟨B, hB, hR⟩ := Option.bind_eq_some_iff.1 hR
      obtain ⟨C, hC, hR⟩ := Option.bind_eq_some_iff.1 hR
      obtain ⟨Q, hQ, hR⟩ := Option.bind_eq_some_iff.1 hR
      exact ⟨A, K, B, C, Q, R, hA, hK, hB, hC, hQ, hR⟩
    obtain ⟨A, p, A1, A2, A3⟩ := D_res hr ht k1 hx hy fun d hd => let ⟨A, _, _, _, _, _, h, _⟩ := H d hd; ⟨A, h⟩
    obtain ⟨K, n, K1, K2, K3⟩ := Kz_ok hr ht h0 k5 k4 k6 fun d hd => let ⟨_, K, _, _, _, _, _, h, _⟩ := H d hd; ⟨K, h⟩
    obtain ⟨B, bn, bp, B1, B2, B3⟩ := K_res hr ht k2 k4 hx fun d hd => let ⟨_, _, B, _, _, _, _, _, h, _⟩ := H d hd; ⟨B, h⟩
    obtain ⟨C, cn, cp, C1, C2, C3⟩ := K_res hr ht k3 k4 hy fun d hd => let ⟨_, _, _, C, _, _, _, _, _, h, _⟩ := H d hd; ⟨C, h⟩
    obtain ⟨A', K', B', C', Q', R', a1, a2, a3, a4, a5, a6⟩ := H d0 h0
    obtain ⟨q1, q2, q3, q4⟩ := Mat.quadDiag_inv a5
    obtain ⟨s1, -⟩ := zipCol_inv a6
    obtain rfl := A3 d0 h0 A' a1
    obtain ⟨rfl, -⟩ := K3 d0 h0 K' a2
    obtain ⟨rfl, rfl, -⟩ := B3 d0 h0 B' a3
    obtain ⟨rfl, rfl, -⟩ := C3 d0 h0 C' a4
    obtain ⟨Q, Q1, Q2⟩ := iqfCol_ok (p := B'.c) K2 (by rw [B2, q1]) (by rw [C2, q2, q3])
    obtain ⟨t, t1, t2⟩ := bin_ok (f := (· - ·)) A2 (by rw [Q2, s1, q4]) (.refl s)
    exact ⟨t, _, by simp only [bstepDAtom, A1, K1, B1, C1, Q1, Option.bind_eq_bind, Option.bind_some, t1], t2⟩
  | pseudo kij kzi kzj kzz kzx kxx o =>
    obtain ⟨k1, k2, k3, k4, k5, k6, k7⟩ := hk
    have H : ∀ d, In d s → ∃ A g B C Q P S R, (r' d).D (kij.at' d) (x.at' d) (y.at' d) = some A ∧
        stepIngredients (r' d) (kzz.at' d) (kzx.at' d) (kxx.at' d) (o.at' d) = some g ∧ (r' d).K (kzi.at' d) (o.z.at' d) (x.at' d) = some B ∧
        (r' d).K (kzj.at' d) (o.z.at' d) (y.at' d) = some C ∧ Mat.quadDiag g.Kz⁻¹ B C = some Q ∧ zipCol (· - ·) A Q = some P ∧
        Mat.quadDiag (g.A (o.at' d))⁻¹ B C = some S ∧ zipCol (· + ·) P S = some R := by
      intro d hd
      obtain ⟨R, hR⟩ := h d hd
      obtain ⟨A, hA, hR⟩ := Option.bind_eq_some_iff.1 hR
      obtain ⟨K, hK, hR⟩ := Option.bind_eq_some_iff.1 hR
      obtain ⟨B, hB, hR⟩ := Option.bind_eq_some_iff.1 hR
      obtain ⟨C, hC, hR⟩ := Option.bind_eq_some_iff.1 hR
      obtain ⟨Q, hQ, hR⟩ := Option.bind_eq_some_iff.1 hR
      obtain ⟨P, hP, hR⟩ := Option.bind_eq_some_iff.1 hR
      obtain ⟨S, hS, hR⟩ := Option.bind_eq_some_iff.1 hR
      exact ⟨A, K, B, C, Q, P, S, R, hA, hK, hB, hC, hQ, hP, hS, hR⟩
    obtain ⟨A, p, A1, A2, A3⟩ := D_res hr ht k1 hx hy fun d hd => let ⟨A, _, _, _, _, _, _, _, h, _⟩ := H d hd; ⟨A, h⟩
    obtain ⟨D, n, k, D1, D2, -, -, -, D3⟩ := data_ok hr ht h0 k4 k5 k6 k7 fun d hd => let ⟨_, K, _, _, _, _, _, _, _, h, _⟩ := H d hd; ⟨K, h⟩
    obtain ⟨B, bn, bp, B1, B2, B3⟩ := K_res hr ht k2 k7.z hx fun d hd => let ⟨_, _, B, _, _, _, _, _, _, _, h, _⟩ := H d hd; ⟨B, h⟩
    obtain ⟨C, cn, cp, C1, C2, C3⟩ := K_res hr ht k3 k7.z hy fun d hd => let ⟨_, _, _, C, _, _, _, _, _, _, _, h, _⟩ := H d hd; ⟨C, h⟩
    obtain ⟨R, r1, ⟨sA, r2, r3, r4⟩, -⟩ := BData.C70_compute o.method D2
    rw [r4.antisymm r3] at r2
    obtain ⟨A', K', B', C', Q', P', S', R', a1, a2, a3, a4, a5, a6, a7, a8⟩ := H d0 h0
    obtain ⟨q1, q2, q3, q4⟩ := Mat.quadDiag_inv a5
    obtain ⟨s1, s2⟩ := zipCol_inv a6
    obtain rfl := A3 d0 h0 A' a1
    obtain ⟨rfl, -⟩ := D3 d0 h0 K' a2
    obtain ⟨rfl, rfl, -⟩ := B3 d0 h0 B' a3
    obtain ⟨rfl, rfl, -⟩ := C3 d0 h0 C' a4
    have hB : B.shape = B'.c :: K'.n :: s := by rw [B2, q1]
    have hC : C.shape = B'.c :: K'.n :: s := by rw [C2, q2, q3]
    obtain ⟨Q, Q1, Q2⟩ := iqfCol_ok D2.Kz hB hC
    obtain ⟨S, S1, S2⟩ := iqfCol_ok r2 hB hC
    obtain ⟨P, P1, P2⟩ := bin_ok (f := (· - ·)) A2 (by rw [Q2, s1, q4]) (.refl s)
    obtain ⟨t, t1, t2⟩ := bin_ok (f := (· + ·)) P2 (by rw [S2, s1, q4]) (.refl s)
    exact ⟨t, _, by simp only [bstepDAtom, A1, D1, B1, C1, Q1, P1, r1, S1, Option.bind_eq_bind, Option.bind_some, t1], t2⟩

omit hlm hlk in
theorem tupK_ok {k : BKExpr} {xs ys : List BInput} (hk : k.Is s) (hx : ∀ x ∈ xs, x.Is s) (hy : ∀ y ∈ ys, y.Is s)
    (h : OkAt s fun d => tupK (r' d) (k.at' d) (xs.map (·.at' d)) (ys.map (·.at' d))) : ∃ t p q, btupK r k xs ys = some t ∧ t.shape = q :: p :: s := by
  have H : ∀ d, In d s → ∃ H, (xs.mapM fun x => (ys.mapM fun y => (r' d).K (k.at' d) (x.at' d) (y.at' d)).bind Mat.hcatL).bind Mat.vcatL = some H := by
    intro d hd
    obtain ⟨H, hH⟩ := h d hd
    refine ⟨H, Eq.trans ?_ hH⟩
    simp only [tupK, List.mapM_map]
    rfl
  have each : ∀ x ∈ xs, ∀ d, In d s → ∃ R, (ys.mapM fun y => (r' d).K (k.at' d) (x.at' d) (y.at' d)).bind Mat.hcatL = some R := by
    intro x hx' d hd
    obtain ⟨P, hP⟩ := H d hd
    obtain ⟨rows, hrows, -⟩ := Option.bind_eq_some_iff.1 hP
    exact mapM_each hrows x hx'
  have each' : ∀ x ∈ xs, ∀ y ∈ ys, ∀ d, In d s → ∃ A, (r' d).K (k.at' d) (x.at' d) (y.at' d) = some A := by
    intro x hx' y hy' d hd
    obtain ⟨R, hR⟩ := each x hx' d hd
    obtain ⟨row, hrow, -⟩ := Option.bind_eq_some_iff.1 hR
    exact mapM_each hrow y hy'
  obtain ⟨P, hP⟩ := H d0 h0
  obtain ⟨ts, t, t1, t2, t3⟩ := concat_ok (s := s) (F := fun x => (ys.mapM fun y => r.K k x y).bind hconcat)
    (G := fun x => (ys.mapM fun y => (r' d0).K (k.at' d0) (x.at' d0) (y.at' d0)).bind Mat.hcatL) (fun x hx' => by
      obtain ⟨R, hR⟩ := each x hx' d0 h0
      obtain ⟨us, u, u1, u2, u3⟩ := hconcat_ok (s := s) (F := fun y => r.K k x y) (G := fun y => (r' d0).K (k.at' d0) (x.at' d0) (y.at' d0)) (fun y hy' => by
        obtain ⟨A, p, q, A1, A2, A3⟩ := K_res hr ht hk (hx x hx') (hy y hy') (each' x hx' y hy')
        obtain ⟨B, hB⟩ := each' x hx' y hy' d0 h0
        obtain ⟨rfl, rfl, -⟩ := A3 d0 h0 B hB
        exact ⟨A, B, A1, hB, A2⟩) hR
      exact ⟨u, R, by rw [u1]; exact u2, hR, u3⟩) hP
  exact ⟨t, _, _, by rw [btupK]; simp only [Option.bind_eq_bind]; rw [t1]; exact t2, t3⟩

omit hr hlm hlk in
theorem tupD_ok {k : BKExpr} {xs ys : List BInput} (hk : k.Is s) (hx : ∀ x ∈ xs, x.Is s) (hy : ∀ y ∈ ys, y.Is s)
    (h : OkAt s fun d => tupD (r' d) (k.at' d) (xs.map (·.at' d)) (ys.map (·.at' d))) : ∃ t n, btupD r k xs ys = some t ∧ t.shape = 1 :: n :: s := by
  have H : ∀ d, In d s → xs.length = ys.length ∧ xs ≠ [] ∧ ∃ vs, ((xs.zip ys).mapM fun xy => (r' d).D (k.at' d) (xy.1.at' d) (xy.2.at' d)) = some vs := by
    intro d hd
    obtain ⟨H, hH⟩ := h d hd
    simp only [tupD] at hH
    split at hH
    swap
    · cases hH
    next e =>
    rw [List.zip_map, List.mapM_map] at hH
    obtain ⟨vs, hvs, -⟩ := Option.bind_eq_some_iff.1 hH
    exact ⟨by simpa using e.1, by simpa using e.2, vs, hvs⟩
  obtain ⟨h1, h2, -⟩ := H d0 h0
  obtain ⟨ts, t, n, t1, t2, t3⟩ := flat_ok (s := s) (F := fun xy : BInput × BInput => r.D k xy.1 xy.2) (ys := xs.zip ys) (by
      intro e
      rcases List.zip_eq_nil_iff.1 e with e | e
      · exact h2 e
      · rw [e] at h1
        exact h2 (List.length_eq_zero_iff.1 h1)) (fun xy hxy => by
    refine ht.D hk (hx _ (List.of_mem_zip hxy).1) (hy _ (List.of_mem_zip hxy).2) fun d hd => ?_
    obtain ⟨-, -, vs, hvs⟩ := H d hd
    exact mapM_each hvs xy hxy)
  exact ⟨t, n, by rw [btupD, if_pos h1, Option.bind_eq_bind, t1]; exact t2, t3⟩

theorem K_ok {k : BKExpr} {x y : BInput} (hk : k.Is s) (hx : x.Is s) (hy : y.Is s) (h : OkAt s fun d => stepK (lmAt lm d) (lkAt lk d) (r' d) (k.at' d) (x.at' d) (y.at' d)) :
    ∃ t p q, bstepK lm lk r k x y = some t ∧ t.shape = q :: p :: s := by
  have one : ∀ {x : BInput}, x.Is s → ∀ z ∈ [x], z.Is s := fun h z hz => by rw [List.mem_singleton.1 hz]; exact h
  cases x with
  | tup xs =>
    have hxs := BInput.isL_iff.1 hx.2
    cases y with
    | tup ys => exact tupK_ok hr ht h0 hk hxs (BInput.isL_iff.1 hy.2) fun d hd => by have := h d hd; simpa only [BInput.at', BInput.atL_eq, stepK] using this
    | num y => exact tupK_ok hr ht h0 hk hxs (one hy) fun d hd => by have := h d hd; simpa only [BInput.at', BInput.atL_eq, stepK, List.map_cons, List.map_nil] using this
    | fdd q y => exact tupK_ok hr ht h0 hk hxs (one hy) fun d hd => by have := h d hd; simpa only [BInput.at', BInput.atL_eq, stepK, List.map_cons, List.map_nil] using this
  | num x =>
    cases y with
    | tup ys =>
      exact tupK_ok hr ht h0 hk (one hx) (BInput.isL_iff.1 hy.2) fun d hd => by have := h d hd; simpa only [BInput.at', BInput.atL_eq, stepK, List.map_cons, List.map_nil] using this
    | num y => exact KAtom_ok hr ht h0 hlm hlk hk hx hy h
    | fdd q y => exact KAtom_ok hr ht h0 hlm hlk hk hx hy h
  | fdd p x =>
    cases y with
    | tup ys =>
      exact tupK_ok hr ht h0 hk (one hx) (BInput.isL_iff.1 hy.2) fun d hd => by have := h d hd; simpa only [BInput.at', BInput.atL_eq, stepK, List.map_cons, List.map_nil] using this
    | num y => exact KAtom_ok hr ht h0 hlm hlk hk hx hy h
    | fdd q y => exact KAtom_ok hr ht h0 hlm hlk hk hx hy h

theorem D_ok {k : BKExpr} {x y : BInput} (hk : k.Is s) (hx : x.Is s) (hy : y.Is s) (h : OkAt s fun d => stepD (lmAt lm d) (lkAt lk d) (r' d) (k.at' d) (x.at' d) (y.at' d)) :
    ∃ t n, bstepD lm lk r k x y = some t ∧ t.shape = 1 :: n :: s := by
  have one : ∀ {x : BInput}, x.Is s → ∀ z ∈ [x], z.Is s := fun h z hz => by rw [List.mem_singleton.1 hz]; exact h
  cases x with
  | tup xs =>
    have hxs := BInput.isL_iff.1 hx.2
    cases y with
    | tup ys => exact tupD_ok ht h0 hk hxs (BInput.isL_iff.1 hy.2) fun d hd => by have := h d hd; simpa only [BInput.at', BInput.atL_eq, stepD] using this
    | num y => exact tupD_ok ht h0 hk hxs (one hy) fun d hd => by have := h d hd; simpa only [BInput.at', BInput.atL_eq, stepD, List.map_cons, List.map_nil] using this
    | fdd q y => exact tupD_ok ht h0 hk hxs (one hy) fun d hd => by have := h d hd; simpa only [BInput.at', BInput.atL_eq, stepD, List.map_cons, List.map_nil] using this
  | num x =>
    cases y with
    | tup ys =>
      exact tupD_ok ht h0 hk (one hx) (BInput.isL_iff.1 hy.2) fun d hd => by have := h d hd; simpa only [BInput.at', BInput.atL_eq, stepD, List.map_cons, List.map_nil] using this
    | num y => exact DAtom_ok hr ht h0 hlm hlk hk hx hy h
    | fdd q y => exact DAtom_ok hr ht h0 hlm hlk hk hx hy h
  | fdd p x =>
    cases y with
    | tup ys =>
      exact tupD_ok ht h0 hk (one hx) (BInput.isL_iff.1 hy.2) fun d hd => by have := h d hd; simpa only [BInput.at', BInput.atL_eq, stepD, List.map_cons, List.map_nil] using this
    | num y => exact DAtom_ok hr ht h0 hlm hlk hk hx hy h
    | fdd q y => exact DAtom_ok hr ht h0 hlm hlk hk hx hy h

omit hlk in
theorem M_ok {a : BMExpr} {x : BInput} (ha : a.Is s) (hx : x.Is s) (h : OkAt s fun d => stepM (lmAt lm d) (r' d) (a.at' d) (x.at' d)) :
    ∃ t n, bstepM lm r a x = some t ∧ t.shape = 1 :: n :: s := by
  cases a with
  | zero => exact ⟨_, _, by simp only [bstepM, hx.batch, Option.bind_eq_bind, Option.bind_some, Option.pure_def]; rfl, rfl⟩
  | fn f =>
    cases f with
    | const c => exact ⟨_, _, by simp only [bstepM, hx.batch, Option.bind_eq_bind, Option.bind_some, Option.pure_def]; rfl, rfl⟩
    | user f =>
      obtain ⟨t, n, b, t1, t2, -, t3, -⟩ := fn_ok (f := .user f) hr ht h0 hlm hx h
      rw [t3 id] at t2
      exact ⟨t, n, by rw [← t1, bstepM]; simp, t2⟩
    | meanOf m p =>
      obtain ⟨t, n, b, t1, t2, -, t3, -⟩ := fn_ok (f := .meanOf m p) hr ht h0 hlm hx h
      rw [t3 id] at t2
      exact ⟨t, n, by rw [← t1, bstepM]; simp, t2⟩
  | mom m ps =>
    cases x with
    | num x => exact ht.M (a := .mom m ps) ha (is_fdds ha hx) fun d hd => by beta_reduce; rw [at_fdds]; exact h d hd
    | fdd p x =>
      have H : ∀ d, In d s → ∃ a v, lm m p = some a ∧ (r' d).M (a.at' d) (x.at' d) = some v := by
        intro d hd
        obtain ⟨v, hv⟩ := h d hd
        obtain ⟨a, ha, hv⟩ := Option.bind_eq_some_iff.1 hv
        obtain ⟨b, hb, rfl⟩ := Option.map_eq_some_iff.1 ha
        exact ⟨b, v, hb, hv⟩
      obtain ⟨a, -, ha, -⟩ := H d0 h0
      obtain ⟨t, n, t1, t2⟩ := ht.M (x := x) (hlm m p a ha) hx fun d hd => by
        obtain ⟨b, v, hb, hv⟩ := H d hd
        cases ha.symm.trans hb
        exact ⟨v, hv⟩
      exact ⟨t, n, by rw [bstepM, ha]; exact t1, t2⟩
    | tup xs =>
      have H : ∀ d, In d s → ∃ vs, (xs.mapM fun x => (r' d).M (.mom m ps) (x.at' d)) = some vs := by
        intro d hd
        obtain ⟨v, hv⟩ := h d hd
        simp only [BMExpr.at', BInput.at', BInput.atL_eq, stepM, List.mapM_map, List.map_eq_nil_iff, hx.1, if_false] at hv
        obtain ⟨vs, hvs, -⟩ := Option.map_eq_some_iff.1 hv
        exact ⟨vs, hvs⟩
      obtain ⟨ts, t, n, t1, t2, t3⟩ := flat_ok (s := s) (F := r.M (.mom m ps)) hx.1 fun x hx' =>
        ht.M (a := .mom m ps) ha (BInput.isL_iff.1 hx.2 x hx') fun d hd => by
          obtain ⟨vs, hvs⟩ := H d hd
          exact mapM_each hvs x hx'
      exact ⟨t, n, by rw [bstepM, Option.bind_eq_bind, t1]; exact t2, t3⟩
  | add a b =>
    have H : ∀ d, In d s → ∃ A B C, (r' d).M (a.at' d) (x.at' d) = some A ∧ (r' d).M (b.at' d) (x.at' d) = some B ∧ zipCol (· + ·) A B = some C := by
      intro d hd
      obtain ⟨C, hC⟩ := h d hd
      obtain ⟨A, hA, hC⟩ := Option.bind_eq_some_iff.1 hC
      obtain ⟨B, hB, hC⟩ := Option.bind_eq_some_iff.1 hC
      exact ⟨A, B, C, hA, hB, hC⟩
    obtain ⟨A, p, A1, A2, A3⟩ := M_res hr ht ha.1 hx fun d hd => (H d hd).imp fun A ⟨_, _, h, _⟩ => h
    obtain ⟨B, p', B1, B2, B3⟩ := M_res hr ht ha.2 hx fun d hd => let ⟨_, B, _, _, h, _⟩ := H d hd; ⟨B, h⟩
    obtain ⟨P, Q, C, P1, Q1, C1⟩ := H d0 h0
    obtain ⟨e1, -⟩ := zipCol_inv C1
    obtain rfl := A3 d0 h0 P P1
    obtain rfl := B3 d0 h0 Q Q1
    obtain ⟨t, t1, t2⟩ := bin_ok (f := (· + ·)) A2 (by rw [B2, e1]) (.refl s)
    exact ⟨t, _, by simp only [bstepM, A1, B1, Option.bind_eq_bind, Option.bind_some, t1], t2⟩
  | mul a b =>
    have H : ∀ d, In d s → ∃ A B C, (r' d).M (a.at' d) (x.at' d) = some A ∧ (r' d).M (b.at' d) (x.at' d) = some B ∧ zipCol (· * ·) A B = some C := by
      intro d hd
      obtain ⟨C, hC⟩ := h d hd
      obtain ⟨A, hA, hC⟩ := Option.bind_eq_some_iff.1 hC
      obtain ⟨B, hB, hC⟩ := Option.bind_eq_some_iff.1 hC
      exact ⟨A, B, C, hA, hB, hC⟩
    obtain ⟨A, p, A1, A2, A3⟩ := M_res hr ht ha.1 hx fun d hd => (H d hd).imp fun A ⟨_, _, h, _⟩ => h
    obtain ⟨B, p', B1, B2, B3⟩ := M_res hr ht ha.2 hx fun d hd => let ⟨_, B, _, _, h, _⟩ := H d hd; ⟨B, h⟩
    obtain ⟨P, Q, C, P1, Q1, C1⟩ := H d0 h0
    obtain ⟨e1, -⟩ := zipCol_inv C1
    obtain rfl := A3 d0 h0 P P1
    obtain rfl := B3 d0 h0 Q Q1
    obtain ⟨t, t1, t2⟩ := bin_ok (f := (· * ·)) A2 (by rw [B2, e1]) (.refl s)
    exact ⟨t, _, by simp only [bstepM, A1, B1, Option.bind_eq_bind, Option.bind_some, t1], t2⟩
  | scale c a =>
    obtain ⟨A, p, A1, A2⟩ := ht.M (a := a) ha hx fun d hd => by
      obtain ⟨C, hC⟩ := h d hd
      obtain ⟨A, hA, -⟩ := Option.map_eq_some_iff.1 hC
      exact ⟨A, hA⟩
    exact ⟨Ten.map (c * ·) A, p, by simp only [bstepM, A1, Option.map_some], A2⟩
  | pre tx a =>
    have H : ∀ d, In d s → ∃ x' A, tx.apply (x.at' d) = some x' ∧ (r' d).M (a.at' d) x' = some A := by
      intro d hd
      obtain ⟨C, hC⟩ := h d hd
      obtain ⟨A, hA, hC⟩ := Option.bind_eq_some_iff.1 hC
      exact ⟨A, C, hA, hC⟩
    obtain ⟨x', x1, x2⟩ := applyB_ok h0 ha.1 hx fun d hd => (H d hd).imp fun A ⟨_, h, _⟩ => h
    obtain ⟨-, g1⟩ := applyB_at x1 hx.fits
    obtain ⟨A, p, A1, A2⟩ := ht.M (a := a) ha.2 x2 fun d hd => by
      obtain ⟨_, A, e1, e3⟩ := H d hd
      cases e1.symm.trans (g1 d hd)
      exact ⟨A, e3⟩
    exact ⟨A, p, by simp only [bstepM, x1, Option.bind_eq_bind, Option.bind_some, A1], A2⟩
  | post mi mz kzi z kzz noise y =>
    obtain ⟨a1, a2, a3, a4, a5, a6, a7⟩ := ha
    have H : ∀ d, In d s → ∃ v K w B Q R, (r' d).M (mi.at' d) (x.at' d) = some v ∧ stepKz (r' d) (kzz.at' d) (z.at' d) (noise.toMat d) = some K ∧
        (r' d).M (mz.at' d) (z.at' d) = some w ∧ (r' d).K (kzi.at' d) (z.at' d) (x.at' d) = some B ∧ w.length = K.r ∧ (y.uprank.colList y.nrows d).length = K.r ∧
        Mat.tmulVec B ((K.sq K.r)⁻¹ *ᵥ fun a : Fin K.r => (y.uprank.colList y.nrows d).getD a 0 - w.getD a 0) = some Q ∧ zipCol (· + ·) v Q = some R := by
      intro d hd
      obtain ⟨R, hR⟩ := h d hd
      obtain ⟨A, hA, hR⟩ := Option.bind_eq_some_iff.1 hR
      obtain ⟨K, hK, hR⟩ := Option.bind_eq_some_iff.1 hR
      obtain ⟨B, hB, hR⟩ := Option.bind_eq_some_iff.1 hR
      obtain ⟨C, hC, hR⟩ := Option.bind_eq_some_iff.1 hR
      split at hR
      swap
      · cases hR
      next e =>
      obtain ⟨Q, hQ, hR⟩ := Option.bind_eq_some_iff.1 hR
      exact ⟨A, K, B, C, Q, R, hA, hK, hB, hC, e.1, e.2, hQ, hR⟩
    obtain ⟨v, p, v1, v2, v3⟩ := M_res hr ht a1 hx fun d hd => let ⟨A, _, _, _, _, _, h, _⟩ := H d hd; ⟨A, h⟩
    obtain ⟨K, n, K1, K2, K3⟩ := Kz_ok hr ht h0 a5 a4 a6 fun d hd => let ⟨_, K, _, _, _, _, _, h, _⟩ := H d hd; ⟨K, h⟩
    obtain ⟨w, wn, w1, w2, w3⟩ := M_res hr ht a2 a4 fun d hd => let ⟨_, _, B, _, _, _, _, _, h, _⟩ := H d hd; ⟨B, h⟩
    obtain ⟨B, bn, bp, B1, B2, B3⟩ := K_res hr ht a3 a4 hx fun d hd => let ⟨_, _, _, C, _, _, _, _, _, h, _⟩ := H d hd; ⟨C, h⟩
    obtain ⟨v', K', w', B', Q', R', e1, e2, e3, e4, e5, e6, e7, e8⟩ := H d0 h0
    obtain ⟨q1, q2⟩ := Mat.tmulVec_inv e7
    obtain ⟨s1, -⟩ := zipCol_inv e8
    obtain rfl := v3 d0 h0 v' e1
    obtain ⟨rfl, -⟩ := K3 d0 h0 K' e2
    obtain rfl := w3 d0 h0 w' e3
    obtain ⟨rfl, rfl, -⟩ := B3 d0 h0 B' e4
    rw [colList_length] at e6
    obtain ⟨W, W1, W2⟩ := bin_ok' (f := (· - ·)) (a := y.uprank) (b := w) (r := K'.r) (by rw [uprank_shape, a7.1, e6]) (by rw [w2, e5]) a7.2
    obtain ⟨Q, Q1, Q2⟩ := iqf_ok (p := B'.c) K2 (by rw [B2, q1]) W2
    obtain ⟨t, t1, t2⟩ := bin_ok (f := (· + ·)) v2 (by rw [Q2, s1, q2]) (.refl s)
    exact ⟨t, _, by simp only [bstepM, v1, K1, w1, W1, B1, Q1, Option.bind_eq_bind, Option.bind_some, t1], t2⟩
  | pseudo mi mz mx kzi kzz kzx kxx o =>
    obtain ⟨a1, a2, a3, a4, a5, a6, a7, a8⟩ := ha
    have H : ∀ d, In d s → ∃ v g w u B Q R, (r' d).M (mi.at' d) (x.at' d) = some v ∧ stepIngredients (r' d) (kzz.at' d) (kzx.at' d) (kxx.at' d) (o.at' d) = some g ∧
        (r' d).M (mz.at' d) (o.z.at' d) = some w ∧ (r' d).M (mx.at' d) (o.x.at' d) = some u ∧ (r' d).K (kzi.at' d) (o.z.at' d) (x.at' d) = some B ∧
        w.length = g.n ∧ u.length = g.k ∧ o.y.nrows = g.k ∧ B.r = g.n ∧ Q.length = B.c ∧ zipCol (· + ·) v Q = some R := by
      intro d hd
      obtain ⟨R, hR⟩ := h d hd
      obtain ⟨A, hA, hR⟩ := Option.bind_eq_some_iff.1 hR
      obtain ⟨K, hK, hR⟩ := Option.bind_eq_some_iff.1 hR
      obtain ⟨B, hB, hR⟩ := Option.bind_eq_some_iff.1 hR
      obtain ⟨C, hC, hR⟩ := Option.bind_eq_some_iff.1 hR
      obtain ⟨F, hF, hR⟩ := Option.bind_eq_some_iff.1 hR
      split at hR
      swap
      · cases hR
      next e =>
      obtain ⟨Q, hQ, hR⟩ := Option.bind_eq_some_iff.1 hR
      obtain ⟨f1, f2⟩ := Mat.tmulVec_inv hQ
      exact ⟨A, K, B, C, F, Q, R, hA, hK, hB, hC, hF, e.1, e.2.1, (colList_length _ _ _).symm.trans e.2.2, f1, f2, hR⟩
    obtain ⟨v, p, v1, v2, v3⟩ := M_res hr ht a1 hx fun d hd => let ⟨A, _, _, _, _, _, _, h, _⟩ := H d hd; ⟨A, h⟩
    obtain ⟨D, n, k, D1, D2, D3, D4, D5, D6⟩ := data_ok hr ht h0 a5 a6 a7 a8 fun d hd => let ⟨_, K, _, _, _, _, _, _, h, _⟩ := H d hd; ⟨K, h⟩
    obtain ⟨w, wn, w1, w2, w3⟩ := M_res hr ht a2 a8.z fun d hd => let ⟨_, _, B, _, _, _, _, _, _, h, _⟩ := H d hd; ⟨B, h⟩
    obtain ⟨u, un, u1, u2, u3⟩ := M_res hr ht a3 a8.x fun d hd => let ⟨_, _, _, B, _, _, _, _, _, _, h, _⟩ := H d hd; ⟨B, h⟩
    obtain ⟨B, bn, bp, B1, B2, B3⟩ := K_res hr ht a4 a8.z hx fun d hd => let ⟨_, _, _, _, C, _, _, _, _, _, _, h, _⟩ := H d hd; ⟨C, h⟩
    obtain ⟨v', K', w', u', B', Q', R', e1, e2, e3, e4, e5, e6, e7, e8, e9, e10, e11⟩ := H d0 h0
    obtain ⟨s1, -⟩ := zipCol_inv e11
    obtain rfl := v3 d0 h0 v' e1
    obtain ⟨rfl, rfl⟩ := D6 d0 h0 K' e2
    obtain rfl := w3 d0 h0 w' e3
    obtain rfl := u3 d0 h0 u' e4
    obtain ⟨rfl, rfl, -⟩ := B3 d0 h0 B' e5
    rw [e6] at w2
    rw [e7] at u2
    have hy : o.y.uprank.shape = 1 :: K'.k :: o.y.batch := by rw [uprank_shape, a8.y.1, e8]
    have hDD : BData.Sized { D with mx := u, mz := w, y := o.y } K'.n K'.k s s :=
      ⟨D2.Kz, D2.fits, D2.Kzx, D2.kx, D2.noise, ⟨s, u2, .refl s⟩, ⟨s, w2, .refl s⟩, ⟨o.y.batch, hy, a8.y.2⟩⟩
    obtain ⟨R, r1, -, ⟨sm, r2, r3, r4⟩, -⟩ := BData.C70_compute o.method hDD
    rw [r4.antisymm r3] at r2
    obtain ⟨W, W1, W2⟩ := bin_ok (f := (· - ·)) r2 w2 (.refl s)
    obtain ⟨Q, Q1, Q2⟩ := iqf_ok (p := B'.c) D2.Kz (by rw [B2, e9]) W2
    obtain ⟨t, t1, t2⟩ := bin_ok (f := (· + ·)) v2 (by rw [Q2, s1, e10]) (.refl s)
    refine ⟨t, _, ?_, t2⟩
    simp only [bstepM, v1, D1, w1, u1, B1, Option.bind_eq_bind, Option.bind_some]
    rw [if_pos ⟨by rw [w2, D3]; rfl, by rw [u2, D4]; rfl, by rw [hy, D5]; rfl⟩, r1]
    simp only [Option.bind_some, W1, Q1, t1]

end Step

/-- The evaluators for batches return if the evaluators return at all indices of the batch. -/
theorem totAt {lm : MId → PId → Option BMExpr} {lk : MId → PId → PId → Option BKExpr} {d0 : List ℕ} (h0 : In d0 s) (hlm : ∀ m p a, lm m p = some a → a.Is s)
    (hlk : ∀ m p q k, lk m p q = some k → k.Is s) : ∀ n, TotAt s (bev lm lk n) fun d => ev (lmAt lm d) (lkAt lk d) n
  | 0 => ⟨fun _ _ h => (by obtain ⟨a, ha⟩ := h d0 h0; cases ha), fun _ _ _ h => (by obtain ⟨a, ha⟩ := h d0 h0; cases ha),
      fun _ _ _ h => (by obtain ⟨a, ha⟩ := h d0 h0; cases ha)⟩
  | n + 1 =>
    have h := totAt h0 hlm hlk n
    have h' := simAt (fun m p a h => (hlm m p a h).fits) (fun m p q k h => (hlk m p q k h).fits) n
    ⟨fun ha hx e => M_ok h' h h0 hlm ha hx e, fun hk hx hy e => K_ok h' h h0 hlm hlk hk hx hy e, fun hk hx hy e => D_ok h' h h0 hlm hlk hk hx hy e⟩

section
variable {lm : MId → PId → Option BMExpr} {lk : MId → PId → PId → Option BKExpr} (hs : ∃ d, In d s) (hlm : ∀ m p a, lm m p = some a → a.Is s)
  (hlk : ∀ m p q k, lk m p q = some k → k.Is s) (n : ℕ)
include hs hlm hlk

/-- **C71.** If all inputs have the batch dimensions `s`, then `pairwise` returns if it returns for the inputs at all indices of the batch. The result has the
batch dimensions `s`, and consists of the matrices at the indices of the batch. -/
theorem C71_pairwise_returns {k : BKExpr} {x y : BInput} (hk : k.Is s) (hx : x.Is s) (hy : y.Is s)
    (h : ∀ d, In d s → ∃ A, (ev (lmAt lm d) (lkAt lk d) n).K (k.at' d) (x.at' d) (y.at' d) = some A) :
    ∃ t r c, (bev lm lk n).K k x y = some t ∧ t.shape = c :: r :: s ∧ ∀ d, In d s →
      ∃ A, (ev (lmAt lm d) (lkAt lk d) n).K (k.at' d) (x.at' d) (y.at' d) = some A ∧ A.r = r ∧ A.c = c ∧ ∀ i < r, ∀ j < c, t.e (j :: i :: d) = A.e i j := by
  obtain ⟨d0, h0⟩ := hs
  obtain ⟨t, r, c, t1, t2, t3⟩ := K_res (simAt (fun m p a h => (hlm m p a h).fits) (fun m p q k h => (hlk m p q k h).fits) n) (totAt h0 hlm hlk n) hk hx hy h
  refine ⟨t, r, c, t1, t2, fun d hd => ?_⟩
  obtain ⟨A, hA⟩ := h d hd
  obtain ⟨A1, A2, A3⟩ := t3 d hd A hA
  refine ⟨A, hA, A1, A2, fun i hi j hj => ?_⟩
  rw [A3 i hi j hj, get_of t2 hi hj, clip_within hd]

/-- **C71.** The same for `elwise`. -/
theorem C71_elwise_returns {k : BKExpr} {x y : BInput} (hk : k.Is s) (hx : x.Is s) (hy : y.Is s)
    (h : ∀ d, In d s → ∃ v, (ev (lmAt lm d) (lkAt lk d) n).D (k.at' d) (x.at' d) (y.at' d) = some v) :
    ∃ t r, (bev lm lk n).D k x y = some t ∧ t.shape = 1 :: r :: s ∧ ∀ d, In d s →
      ∃ v, (ev (lmAt lm d) (lkAt lk d) n).D (k.at' d) (x.at' d) (y.at' d) = some v ∧ v.length = r ∧ ∀ i < r, v[i]? = some (t.e (0 :: i :: d)) := by
  obtain ⟨d0, h0⟩ := hs
  obtain ⟨t, r, t1, t2⟩ := (totAt h0 hlm hlk n).D hk hx hy h
  obtain ⟨r', b, h1, -, h3⟩ := C71_elwise (fun m p a h => (hlm m p a h).fits) (fun m p q k h => (hlk m p q k h).fits) n hk.fits hx.fits hy.fits t1
  rw [t2] at h1
  cases h1
  refine ⟨t, r, t1, t2, fun d hd => ?_⟩
  obtain ⟨v, v1, v2, v3⟩ := h3 d hd
  refine ⟨v, v1, v2, fun i hi => ?_⟩
  rw [v3 i hi, get_of t2 hi one_pos, clip_within hd]

/-- **C71.** The same for means. -/
theorem C71_mean_returns {a : BMExpr} {x : BInput} (ha : a.Is s) (hx : x.Is s)
    (h : ∀ d, In d s → ∃ v, (ev (lmAt lm d) (lkAt lk d) n).M (a.at' d) (x.at' d) = some v) :
    ∃ t r, (bev lm lk n).M a x = some t ∧ t.shape = 1 :: r :: s ∧ ∀ d, In d s →
      ∃ v, (ev (lmAt lm d) (lkAt lk d) n).M (a.at' d) (x.at' d) = some v ∧ v.length = r ∧ ∀ i < r, v[i]? = some (t.e (0 :: i :: d)) := by
  obtain ⟨d0, h0⟩ := hs
  obtain ⟨t, r, t1, t2⟩ := (totAt h0 hlm hlk n).M ha hx h
  obtain ⟨r', b, h1, -, h3⟩ := C71_mean (fun m p a h => (hlm m p a h).fits) (fun m p q k h => (hlk m p q k h).fits) n ha.fits hx.fits t1
  rw [t2] at h1
  cases h1
  refine ⟨t, r, t1, t2, fun d hd => ?_⟩
  obtain ⟨v, v1, v2, v3⟩ := h3 d hd
  refine ⟨v, v1, v2, fun i hi => ?_⟩
  rw [v3 i hi, get_of t2 hi one_pos, clip_within hd]

/-- **C71.** The normal of an FDD at a batch of inputs: it can be computed if it can be computed at all indices of the batch, and consists of the normals at the
indices of the batch. -/
theorem C71_normal_returns {a : BMExpr} {k : BKExpr} {x : BInput} (ha : a.Is s) (hk : k.Is s) (hx : x.Is s) {l : ℕ}
    (h : ∀ d, In d s → ∃ v A, (ev (lmAt lm d) (lkAt lk d) n).M (a.at' d) (x.at' d) = some v ∧ (ev (lmAt lm d) (lkAt lk d) n).K (k.at' d) (x.at' d) (x.at' d) = some A ∧
      v.length = l ∧ A.r = l ∧ A.c = l) :
    ∃ m V, (bev lm lk n).M a x = some m ∧ (bev lm lk n).K k x x = some V ∧ (⟨m, V⟩ : BNormal).Sized l s s ∧ ∀ d, In d s →
      ∃ v A, (ev (lmAt lm d) (lkAt lk d) n).M (a.at' d) (x.at' d) = some v ∧ (ev (lmAt lm d) (lkAt lk d) n).K (k.at' d) (x.at' d) (x.at' d) = some A ∧
        (⟨m, V⟩ : BNormal).at' l d = ⟨fun i => v.getD i 0, fun i j => A.e i j⟩ := by
  have hl : ∀ m p a, lm m p = some a → a.Fits s := fun m p a h => (hlm m p a h).fits
  have hl' : ∀ m p q k, lk m p q = some k → k.Fits s := fun m p q k h => (hlk m p q k h).fits
  obtain ⟨m, r, m1, m2, m3⟩ := C71_mean_returns hs hlm hlk n ha hx fun d hd => let ⟨v, _, h, _⟩ := h d hd; ⟨v, h⟩
  obtain ⟨V, r', c, V1, V2, V3⟩ := C71_pairwise_returns hs hlm hlk n hk hx hx fun d hd => let ⟨_, A, _, h, _⟩ := h d hd; ⟨A, h⟩
  obtain ⟨d0, h0⟩ := hs
  obtain ⟨v, A, e1, e2, e3, e4, e5⟩ := h d0 h0
  obtain ⟨v', f1, f2, -⟩ := m3 d0 h0
  obtain ⟨A', g1, g2, g3, -⟩ := V3 d0 h0
  cases e1.symm.trans f1
  cases e2.symm.trans g1
  obtain rfl := f2.symm.trans e3
  obtain rfl := g2.symm.trans e4
  obtain rfl := g3.symm.trans e5
  obtain ⟨bm, bv, s1, -, -, s2⟩ := C71_normal hl hl' n ha.fits hk.fits hx.fits m1 V1 (l := c) (by rw [m2]; rfl) (by rw [V2]; rfl)
  refine ⟨m, V, m1, V1, ⟨m2, V2⟩, fun d hd => ?_⟩
  obtain ⟨v, A, k1, k2, -, -, -, k3⟩ := s2 d hd
  exact ⟨v, A, k1, k2, k3⟩

end

/-! ### Examples -/

namespace BatchExample

/-- A batch of two inputs. -/
def z : BInput := .num ⟨[1, 1, 2], fun i => (i.tail.tail.headD 0 : ℝ)⟩

/-- A batch of three inputs each. -/
def x : BInput := .num ⟨[1, 3, 2], fun i => (i.tail.headD 0 + 5 * i.tail.tail.headD 0 : ℝ)⟩

/-- A batch of observations. -/
def y : Ten ℝ := ⟨[1, 1, 2], fun i => 1 + i.tail.tail.headD 0⟩

/-- The variance of the noise, the same for both. -/
def noise : Ten ℝ := ⟨[1, 1], fun _ => 1⟩

/-- The linear kernel with an offset. -/
def k : Pt → Pt → ℝ := fun x y => 1 + x.headD 0 * y.headD 0

/-- The posterior mean. -/
def mean : BMExpr := .post .zero .zero (.prim k) z (.prim k) noise y

/-- The posterior kernel. -/
def kernel : BKExpr := .post (.prim k) (.prim k) (.prim k) z (.prim k) noise

theorem z_is : z.Is [2] := ⟨rfl, one_pos⟩
theorem x_is : x.Is [2] := ⟨rfl, by decide⟩
theorem noise_is : noise.MatIs [2] := ⟨1, 1, [], rfl, rfl⟩
theorem mean_is : mean.Is [2] := ⟨trivial, trivial, trivial, z_is, trivial, noise_is, rfl, rfl⟩
theorem kernel_is : kernel.Is [2] := ⟨trivial, trivial, trivial, z_is, trivial, noise_is⟩
theorem batch : ∃ d, In d [2] := ⟨[1], .cons (by decide) .nil⟩

theorem pd (c : ℝ) (h : 0 < c) {A : Matrix (Fin 1) (Fin 1) ℝ} (e : A 0 0 = c) : A.PosDef := by
  have : A = Matrix.diagonal fun _ => c := by
    funext i j
    obtain rfl := Subsingleton.elim i 0
    obtain rfl := Subsingleton.elim j 0
    simp [e]
  rw [this]
  exact Matrix.PosDef.diagonal fun _ => h

theorem z_at (d : List ℕ) : ∃ a : Pt, z.at' d = .num [a] := ⟨_, rfl⟩
theorem x_at (d : List ℕ) : ∃ a b c : Pt, x.at' d = .num [a, b, c] := ⟨_, _, _, rfl⟩

theorem kz (lm : MId → PId → Option MExpr) (lk : MId → PId → PId → Option KExpr) (d : List ℕ) :
    ∃ K, stepKz (ev lm lk 1) (.prim k) (z.at' d) (noise.toMat d) = some K ∧ K.r = 1 ∧ K.c = 1 := by
  obtain ⟨a, e⟩ := z_at d
  rw [e]
  refine ⟨⟨1, 1, fun i j => k ([a].getD i []) ([a].getD j []) + 1⟩, ?_, rfl, rfl⟩
  exact if_pos ⟨rfl, pd (k a a + 1) (by simp only [k]; nlinarith [mul_self_nonneg (a.headD 0)]) rfl⟩

/-- The posterior mean is evaluated at the batch of inputs, and gives the posterior means of both models. -/
example (lm : MId → PId → Option BMExpr) (lk : MId → PId → PId → Option BKExpr) (hlm : ∀ m p a, lm m p = some a → a.Is [2])
    (hlk : ∀ m p q k, lk m p q = some k → k.Is [2]) : ∃ t r, (bev lm lk 2).M mean x = some t ∧ t.shape = [1, r, 2] ∧ ∀ d, In d [2] →
      ∃ v, (ev (lmAt lm d) (lkAt lk d) 2).M (mean.at' d) (x.at' d) = some v ∧ v.length = r ∧ ∀ i < r, v[i]? = some (t.e (0 :: i :: d)) := by
  refine C71_mean_returns batch hlm hlk 2 mean_is x_is fun d hd => ?_
  obtain ⟨K, K1, K2, K3⟩ := kz (lmAt lm d) (lkAt lk d) d
  obtain ⟨Kr, Kc, Ke⟩ := K
  simp only at K2
  subst K2
  obtain ⟨a, ea⟩ := z_at d
  obtain ⟨b1, b2, b3, eb⟩ := x_at d
  rw [ea] at K1
  refine Option.isSome_iff_exists.1 ?_
  simp only [mean, BMExpr.at', BKExpr.at', ea, eb, ev, step, stepM, Option.bind_eq_bind, Option.bind_some]
  simp only [ev, step] at K1
  rw [K1]
  rfl

/-- The same for the posterior kernel. -/
example (lm : MId → PId → Option BMExpr) (lk : MId → PId → PId → Option BKExpr) (hlm : ∀ m p a, lm m p = some a → a.Is [2])
    (hlk : ∀ m p q k, lk m p q = some k → k.Is [2]) : ∃ t r c, (bev lm lk 2).K kernel x x = some t ∧ t.shape = [c, r, 2] ∧ ∀ d, In d [2] →
      ∃ A, (ev (lmAt lm d) (lkAt lk d) 2).K (kernel.at' d) (x.at' d) (x.at' d) = some A ∧ A.r = r ∧ A.c = c ∧ ∀ i < r, ∀ j < c, t.e (j :: i :: d) = A.e i j := by
  refine C71_pairwise_returns batch hlm hlk 2 kernel_is x_is x_is fun d hd => ?_
  obtain ⟨K, K1, K2, K3⟩ := kz (lmAt lm d) (lkAt lk d) d
  obtain ⟨Kr, Kc, Ke⟩ := K
  simp only at K2
  subst K2
  obtain ⟨a, ea⟩ := z_at d
  obtain ⟨b1, b2, b3, eb⟩ := x_at d
  rw [ea] at K1
  refine Option.isSome_iff_exists.1 ?_
  simp only [kernel, BKExpr.at', ea, eb, ev, step, stepK, stepKAtom, Option.bind_eq_bind, Option.bind_some]
  simp only [ev, step] at K1
  rw [K1]
  rfl

/-- The same for the posterior variances. -/
example (lm : MId → PId → Option BMExpr) (lk : MId → PId → PId → Option BKExpr) (hlm : ∀ m p a, lm m p = some a → a.Is [2])
    (hlk : ∀ m p q k, lk m p q = some k → k.Is [2]) : ∃ t r, (bev lm lk 2).D kernel x x = some t ∧ t.shape = [1, r, 2] ∧ ∀ d, In d [2] →
      ∃ v, (ev (lmAt lm d) (lkAt lk d) 2).D (kernel.at' d) (x.at' d) (x.at' d) = some v ∧ v.length = r ∧ ∀ i < r, v[i]? = some (t.e (0 :: i :: d)) := by
  refine C71_elwise_returns batch hlm hlk 2 kernel_is x_is x_is fun d hd => ?_
  obtain ⟨K, K1, K2, K3⟩ := kz (lmAt lm d) (lkAt lk d) d
  obtain ⟨Kr, Kc, Ke⟩ := K
  simp only at K2
  subst K2
  obtain ⟨a, ea⟩ := z_at d
  obtain ⟨b1, b2, b3, eb⟩ := x_at d
  rw [ea] at K1
  refine Option.isSome_iff_exists.1 ?_
  simp only [kernel, BKExpr.at', ea, eb, ev, step, stepD, stepDAtom, Option.bind_eq_bind]
  simp only [ev, step] at K1
  rw [K1]
  rfl

/-- The prior at the batch of inputs. -/
example (lm : MId → PId → Option BMExpr) (lk : MId → PId → PId → Option BKExpr) (hlm : ∀ m p a, lm m p = some a → a.Is [2])
    (hlk : ∀ m p q k, lk m p q = some k → k.Is [2]) : ∃ m V, (bev lm lk 2).M (.fn (.const 3)) x = some m ∧ (bev lm lk 2).K (.prim k) x x = some V ∧
      (⟨m, V⟩ : BNormal).Sized 3 [2] [2] := by
  obtain ⟨m, V, h1, h2, h3, -⟩ := C71_normal_returns (a := .fn (.const 3)) (k := .prim k) batch hlm hlk 2 trivial trivial x_is (l := 3)
    fun d hd => ⟨_, _, rfl, rfl, rfl, rfl, rfl⟩
  exact ⟨m, V, h1, h2, h3⟩

/-- A tuple of inputs, and a kernel one of whose inputs is shifted. -/
example (lm : MId → PId → Option BMExpr) (lk : MId → PId → PId → Option BKExpr) (hlm : ∀ m p a, lm m p = some a → a.Is [2])
    (hlk : ∀ m p q k, lk m p q = some k → k.Is [2]) : ∃ t r c, (bev lm lk 3).K (.pre (.shift (.scalar 1)) .none (.prim k)) (.tup [x, z]) x = some t ∧ t.shape = [c, r, 2] := by
  obtain ⟨t, r, c, h1, h2, -⟩ := C71_pairwise_returns (k := .pre (.shift (.scalar 1)) .none (.prim k)) (x := .tup [x, z]) batch hlm hlk 3 ⟨trivial, trivial, trivial⟩
    ⟨by simp, x_is, z_is, trivial⟩ x_is fun d hd => Option.isSome_iff_exists.1 rfl
  exact ⟨t, r, c, h1, h2⟩

end BatchExample

end Stheno
