import Verif.MorePoints
import Verif.Props.Sparse

/-!
# C55: more inducing points

For VFE the bound does not get worse when inducing points are added (`C55_regular`), and the data among the inducing points make it
exact (`C55_exact`).
-/

namespace Stheno

open Matrix

section
variable {α β : Type}

/-- Things with noise that are among other things with noise. -/
def Among (zs : List α) (N : Mat) (zs' : List α) (N' : Mat) : Prop :=
  ∃ f : ℕ → ℕ, ∀ i < zs.length, f i < zs'.length ∧ zs[i]? = zs'[f i]? ∧ ∀ j < zs.length, N.e i j = N'.e (f i) (f j)

section
variable {zs zs' zs'' as bs : List α} {N N' N'' A B : Mat}

theorem Among.refl : Among zs N zs N := ⟨id, fun _ hi => ⟨hi, rfl, fun _ _ => rfl⟩⟩

theorem Among.trans (h : Among zs N zs' N') (h' : Among zs' N' zs'' N'') : Among zs N zs'' N'' := by
  obtain ⟨f, hf⟩ := h
  obtain ⟨g, hg⟩ := h'
  refine ⟨g ∘ f, fun i hi => ⟨(hg _ (hf i hi).1).1, (hf i hi).2.1.trans (hg _ (hf i hi).1).2.1, fun j hj => ?_⟩⟩
  exact ((hf i hi).2.2 j hj).trans ((hg _ (hf i hi).1).2.2 _ (hf j hj).1)

theorem Among.skip (h : Among zs N zs' N') (hr : A.r = as.length) (hc : A.c = as.length) : Among zs N (as ++ zs') (A.dsum N') := by
  obtain ⟨f, hf⟩ := h
  refine ⟨fun i => as.length + f i, fun i hi => ⟨?_, ?_, fun j hj => ?_⟩⟩
  · rw [List.length_append]
    exact Nat.add_lt_add_left (hf i hi).1 _
  · show _ = (as ++ zs')[as.length + f i]?
    rw [(hf i hi).2.1, List.getElem?_append, if_neg (by omega), Nat.add_sub_cancel_left]
  · rw [(hf i hi).2.2 j hj]
    simp [Mat.dsum, hr, hc]

theorem Among.cons (h : Among zs N zs' N') (hr : A.r = as.length) (hc : A.c = as.length) : Among (as ++ zs) (A.dsum N) (as ++ zs') (A.dsum N') := by
  obtain ⟨f, hf⟩ := h
  refine ⟨fun i => if i < as.length then i else as.length + f (i - as.length), fun i hi => ?_⟩
  rw [List.length_append] at hi
  dsimp only
  by_cases hi' : i < as.length
  · refine ⟨by rw [if_pos hi', List.length_append]; omega, by rw [if_pos hi', List.getElem?_append, List.getElem?_append, if_pos hi', if_pos hi'], fun j hj => ?_⟩
    by_cases hj' : j < as.length
    · simp [Mat.dsum, hr, hc, hi', hj']
    · simp [Mat.dsum, hr, hc, hi', hj']
  · have hf' := hf (i - as.length) (by omega)
    refine ⟨by rw [if_neg hi', List.length_append]; omega, ?_, fun j hj => ?_⟩
    · rw [if_neg hi', List.getElem?_append, List.getElem?_append, if_neg hi', if_neg (by omega), Nat.add_sub_cancel_left, hf'.2.1]
    · rw [List.length_append] at hj
      by_cases hj' : j < as.length
      · simp [Mat.dsum, hr, hc, hi', hj']
      · simp only [Mat.dsum, hr, hc, hi', hj', if_false, Nat.add_sub_cancel_left]
        rw [if_neg (by omega), if_neg (by omega)]
        exact hf'.2.2 _ (by omega)

theorem Among.swap (hr : A.r = as.length) (hc : A.c = as.length) (hr' : B.r = bs.length) (hc' : B.c = bs.length) :
    Among (as ++ (bs ++ zs)) (A.dsum (B.dsum N)) (bs ++ (as ++ zs)) (B.dsum (A.dsum N)) := by
  obtain ⟨g, g1, g2, g3⟩ : ∃ g : ℕ → ℕ, (∀ i, i < as.length → g i = bs.length + i) ∧
      (∀ i, as.length ≤ i ∧ i < as.length + bs.length → g i = i - as.length) ∧ ∀ i, as.length + bs.length ≤ i → g i = i :=
    ⟨fun i => if i < as.length then bs.length + i else if i < as.length + bs.length then i - as.length else i, fun i hi => if_pos hi,
      fun i hi => by dsimp only; rw [if_neg (by omega), if_pos hi.2], fun i hi => by dsimp only; rw [if_neg (by omega), if_neg (by omega)]⟩
  refine ⟨g, fun i hi => ?_⟩
  simp only [List.length_append] at hi
  obtain h1 | h1 | h1 : i < as.length ∨ (as.length ≤ i ∧ i < as.length + bs.length) ∨ as.length + bs.length ≤ i := by omega
  all_goals
    first | rw [g1 i h1] | rw [g2 i h1] | rw [g3 i h1]
    refine ⟨by simp only [List.length_append]; omega, ?_, fun j hj => ?_⟩
    · simp only [List.getElem?_append]
      repeat first | rw [if_pos (by omega)] | rw [if_neg (by omega)]
      try (congr 1; omega)
    · simp only [List.length_append] at hj
      simp only [Mat.dsum, hr, hc, hr', hc']
      obtain h2 | h2 | h2 : j < as.length ∨ (as.length ≤ j ∧ j < as.length + bs.length) ∨ as.length + bs.length ≤ j := by omega
      all_goals
        first | rw [g1 j h2] | rw [g2 j h2] | rw [g3 j h2]
        repeat first | rw [if_pos (by omega)] | rw [if_neg (by omega)]
        try (congr 1 <;> omega)

end

/-- Blocks that are among other blocks, in any order. -/
theorem among_of_subperm (val : Fdd → List α) {us us' : List Fdd} (h : us.Subperm us')
    (hv : ∀ f ∈ us', f.noise.r = (val f).length ∧ f.noise.c = (val f).length) :
    Among (us.map val).flatten (Mat.blockDiag (us.map (·.noise))) (us'.map val).flatten (Mat.blockDiag (us'.map (·.noise))) := by
  obtain ⟨l, hl, hs⟩ := h
  have h1 : ∀ {l us : List Fdd}, us.Perm l → (∀ f ∈ l, f.noise.r = (val f).length ∧ f.noise.c = (val f).length) →
      Among (us.map val).flatten (Mat.blockDiag (us.map (·.noise))) (l.map val).flatten (Mat.blockDiag (l.map (·.noise))) := by
    intro l us h
    induction h with
    | nil => exact fun _ => .refl
    | cons a _ ih => exact fun hv => (ih fun f hf => hv f (by simp [hf])).cons (hv a (by simp)).1 (hv a (by simp)).2
    | swap a b l => exact fun hv => .swap (hv b (by simp)).1 (hv b (by simp)).2 (hv a (by simp)).1 (hv a (by simp)).2
    | trans _ h2 ih1 ih2 => exact fun hv => (ih1 fun f hf => hv f (h2.mem_iff.1 hf)).trans (ih2 hv)
  have h2 : ∀ {l us' : List Fdd}, l.Sublist us' → (∀ f ∈ us', f.noise.r = (val f).length ∧ f.noise.c = (val f).length) →
      Among (l.map val).flatten (Mat.blockDiag (l.map (·.noise))) (us'.map val).flatten (Mat.blockDiag (us'.map (·.noise))) := by
    intro l us' h
    induction h with
    | slnil => exact fun _ => .refl
    | cons a _ ih => exact fun hv => (ih fun f hf => hv f (by simp [hf])).skip (hv a (by simp)).1 (hv a (by simp)).2
    | cons_cons a _ ih => exact fun hv => (ih fun f hf => hv f (by simp [hf])).cons (hv a (by simp)).1 (hv a (by simp)).2
  exact (h1 hl.symm fun f hf => hv f (hs.subset hf)).trans (h2 hs hv)

theorem Among.map {zs zs' : List α} {N N' : Mat} (g : α → β) (h : Among zs N zs' N') : Among (zs.map g) N (zs'.map g) N' := by
  obtain ⟨f, hf⟩ := h
  simp only [Among, List.length_map, List.getElem?_map]
  exact ⟨f, fun i hi => ⟨(hf i hi).1, by rw [(hf i hi).2.1], (hf i hi).2.2⟩⟩

/-- Without noise. -/
theorem among_of_subset {zs zs' : List α} {N N' : Mat} (h : zs ⊆ zs') (hN : ∀ i < zs.length, ∀ j < zs.length, N.e i j = 0)
    (hN' : ∀ i < zs'.length, ∀ j < zs'.length, N'.e i j = 0) : Among zs N zs' N' := by
  have : ∀ i, ∃ k, i < zs.length → k < zs'.length ∧ zs[i]? = zs'[k]? := by
    intro i
    by_cases hi : i < zs.length
    · obtain ⟨k, hk, e⟩ := List.mem_iff_getElem.1 (h (List.getElem_mem hi))
      exact ⟨k, fun _ => ⟨hk, by rw [List.getElem?_eq_getElem hi, List.getElem?_eq_getElem hk, e]⟩⟩
    · exact ⟨0, fun hi' => (hi hi').elim⟩
  choose f hf using this
  exact ⟨f, fun i hi => ⟨(hf i hi).1, (hf i hi).2, fun j hj => by rw [hN i hi j hj, hN' _ (hf i hi).1 _ (hf j hj).1]⟩⟩

variable {V : Type} [AddCommGroup V] [Module ℝ V]

/-- The matrix that selects. -/
theorem Among.select {S : SO V} {zs zs' xs : List V} {N N' : Mat} (h : Among zs N zs' N') :
    ∃ P : Matrix (Fin zs'.length) (Fin zs.length) ℝ, noisyGram S zs N = Pᵀ * noisyGram S zs' N' * P ∧ crossGram S zs xs = Pᵀ * crossGram S zs' xs := by
  obtain ⟨f, hf⟩ := h
  have get : ∀ i : Fin zs.length, zs.get i = zs'.get ⟨f i, (hf i i.2).1⟩ := by
    intro i
    have := (hf i i.2).2.1
    rwa [List.getElem?_eq_getElem i.2, List.getElem?_eq_getElem (hf i i.2).1, Option.some.injEq] at this
  let P : Matrix (Fin zs'.length) (Fin zs.length) ℝ := fun k i => if k = ⟨f i, (hf i i.2).1⟩ then 1 else 0
  have left : ∀ {l : ℕ} (M : Matrix (Fin zs'.length) (Fin l) ℝ) (i : Fin zs.length) (j), (Pᵀ * M) i j = M ⟨f i, (hf i i.2).1⟩ j := by
    intro l M i j
    rw [Matrix.mul_apply]
    show ∑ x, P x i * M x j = _
    simp only [P, ite_mul, one_mul, zero_mul, Finset.sum_ite_eq', Finset.mem_univ, if_true]
  refine ⟨P, ?_, ?_⟩
  · ext i j
    rw [Matrix.mul_apply]
    simp only [left]
    simp only [P, mul_ite, mul_one, mul_zero, Finset.sum_ite_eq', Finset.mem_univ, if_true]
    show S.C (zs.get i) (zs.get j) + N.e i j = S.C _ _ + N'.e (f i) (f j)
    rw [get i, get j, (hf i i.2).2.2 j j.2]
  · ext i j
    rw [left]
    show S.C (zs.get i) _ = S.C _ _
    rw [get i]

end

section
variable {V : Type} [AddCommGroup V] [Module ℝ V] {I : Interp V} {G : Dom} {D : PId → ℕ} {ops : List Op} {m : MId} {us us' : List Fdd}
  {l : List (Fdd × Vals)} {zssu zssu' zss : List (List V)} {r r' : ℝ} {pu pu' p p' : PId} {o o' : PseudoData} {zs zs' xs : List V}

/-- **C55.** In any reading: if the inducing variables of one object are among those of another, and the data are the same, then the bound of
the first is at most that of the second. -/
theorem C55_reading (h : I.Reads ops) (hz : I.F m pu o.z = some zs) (hx : I.F m p o.x = some xs) (hz' : I.F m pu' o'.z = some zs')
    (hx' : I.F m p' o'.x = some xs) (zr : o.noiseZ.r = zs.length) (zc : o.noiseZ.c = zs.length) (xr : o.noiseX.mat.r = xs.length)
    (zr' : o'.noiseZ.r = zs'.length) (zc' : o'.noiseZ.c = zs'.length) (xr' : o'.noiseX.mat.r = xs.length) (hm : o.method = .vfe) (hm' : o'.method = .vfe)
    (hN : ∀ i < xs.length, o.noiseX.mat.e i i = o'.noiseX.mat.e i i) (hy : o.y = o'.y) (ha : Among zs o.noiseZ zs' o'.noiseZ)
    (hr : (getElbo (runOps ops {}) pu p o m {}).2 = some r) (hr' : (getElbo (runOps ops {}) pu' p' o' m {}).2 = some r') : r ≤ r' := by
  obtain ⟨kx, hp, hk, hn, _, rfl⟩ := elbo_spec h hz hx zr zc xr hr
  obtain ⟨kx', hp', hk', hn', _, rfl⟩ := elbo_spec h hz' hx' zr' zc' xr' hr'
  rw [hm] at hn hk ⊢
  rw [hm'] at hk' ⊢
  obtain rfl : kx = kx' := (hk (by simp)).trans (hk' (by simp)).symm
  have en : (fun j : Fin xs.length => o'.noiseX.mat.e j j) = fun j : Fin xs.length => o.noiseX.mat.e j j := by funext j; exact (hN j j.2).symm
  rw [en, ← hy]
  obtain ⟨P, h1, h2⟩ := ha.select (S := I.S m) (xs := xs)
  exact elboOf_mono hp hp' h1 h2 fun j => by simpa only [knDiag, add_zero] using hn j

/-- **C55, all notations.** -/
theorem C55_notations (h : I.Reads ops) (ht : Tells (Dead G) D ops) (e : LogpdfU ops m .vfe us l r) (e' : LogpdfU ops m .vfe us' l r')
    (hl : ∀ e ∈ l, FitsV G e) (bu : I.Blocks m (padded us) zssu) (bu' : I.Blocks m (padded us') zssu') (bl : I.Blocks m (l.map available) zss)
    (ha : Among zssu.flatten (Mat.blockDiag (us.map (·.noise))) zssu'.flatten (Mat.blockDiag (us'.map (·.noise)))) : r ≤ r' := by
  obtain ⟨b0, pu, p, o, hm, hb, hr⟩ := e.fresh
  obtain ⟨b0', pu', p', o', hm', hb', hr'⟩ := e'.fresh
  obtain ⟨_, _, _, eo, hme, hz, hx, zr, zc, xr, xc, hy, hNz, hNx⟩ := hm.spec hb h ht hl bu bl
  cases eo
  obtain ⟨_, _, _, eo, hme', hz', hx', zr', zc', xr', xc', hy', hNz', hNx'⟩ := hm'.spec hb' h ht hl bu' bl
  cases eo
  refine C55_reading h hz hx hz' hx' zr zc xr zr' zc' xr' hme hme' (fun i hi => (hNx i hi i hi).trans (hNx' i hi i hi).symm) (hy.trans hy'.symm) ?_ hr hr'
  obtain ⟨f, hf⟩ := ha
  refine ⟨f, fun i hi => ⟨(hf i hi).1, (hf i hi).2.1, fun j hj => ?_⟩⟩
  rw [hNz i hi j hj, hNz' _ (hf i hi).1 _ (hf j hj).1]
  exact (hf i hi).2.2 j hj

end

section
variable {G : Dom} {D : PId → ℕ} {ops b : List Op} {m : MId} {us us' : List Fdd} {l : List (Fdd × Vals)} {r r' r'' : ℝ}

/-- The points of FDDs: a process and a row for every one. -/
def Fdd.points (f : Fdd) : List (PId × Pt) :=
  match f.x with
  | .num xs => xs.map fun x => (f.p, x)
  | _ => []

/-- The points of a list of FDDs, in order. -/
def pointsOf (us : List Fdd) : List (PId × Pt) := (us.map Fdd.points).flatten

/-- The noise of a list of FDDs. -/
def noiseOf (us : List Fdd) : Mat := Mat.blockDiag (us.map (·.noise))

/-- The variables are those of the points. -/
theorem Regular.points_values (h : Regular G ops) (hu : ∀ f ∈ us, FitsF G f) {zssu : List (List RV)} (b : (reading ops).Blocks m (padded us) zssu) :
    zssu.flatten = (pointsOf us).map fun px => pointOf ((reading ops).F m px.1) px.2 := by
  obtain ⟨a, ha⟩ := isMeas_exists (specOps ops {}) m
  have hr := canon_rowWise (elem_reach h.elem) m a ha
  unfold padded at b
  unfold pointsOf
  induction us generalizing zssu with
  | nil => cases b; rfl
  | cons f us ih =>
    rw [List.map_cons] at b
    cases b with
    | cons e b' =>
      obtain ⟨xs, hx, _, hn, _⟩ := hu f (by simp)
      dsimp only at e
      rw [hx] at e
      rw [List.flatten_cons, ih (fun g hg => hu g (by simp [hg])) b', List.map_cons, List.flatten_cons, List.map_append,
        hr.point e.1 (e.2.1.symm.trans hn)]
      simp only [Fdd.points, hx, List.map_map]
      rfl

/-- **C55.** In regular programs: for VFE, if the inducing points, with their noise, are among others, then `m.logpdf(pseudo_obs)` of the same data with the
others is at least as large, whatever the notations and the order, whatever was asked of the objects before, and however the model was extended. -/
theorem C55_regular (h : Regular G ops) (ht : Tells (Dead G) D ops) (e : LogpdfU ops m .vfe us l r) (e' : LogpdfU ops m .vfe us' l r')
    (ha : Among (pointsOf us) (noiseOf us) (pointsOf us') (noiseOf us')) (hu : ∀ f ∈ us, FitsF G f) (hu' : ∀ f ∈ us', FitsF G f)
    (hl : ∀ e ∈ l, FitsV G e) : r ≤ r' := by
  obtain ⟨b0, pu, p, o, hm, hb, _⟩ := e.fresh
  obtain ⟨b0', pu', p', o', hm', hb', _⟩ := e'.fresh
  obtain ⟨⟨zssu, bu⟩, zss, bl⟩ := hm.blocks h hb hu hl
  obtain ⟨⟨zssu', bu'⟩, _, _⟩ := hm'.blocks h hb' hu' hl
  refine C55_notations h.reads ht e e' hl bu bu' bl ?_
  rw [h.points_values hu bu, h.points_values hu' bu']
  exact ha.map _

/-- **C55, more FDDs.** In particular if FDDs are added, in any order. -/
theorem C55_more (h : Regular G ops) (ht : Tells (Dead G) D ops) (e : LogpdfU ops m .vfe us l r) (e' : LogpdfU ops m .vfe us' l r')
    (hs : us.Subperm us') (hu : ∀ f ∈ us', FitsF G f) (hl : ∀ e ∈ l, FitsV G e) : r ≤ r' :=
  C55_regular h ht e e' (among_of_subperm Fdd.points hs fun f hf => by
    obtain ⟨xs, hx, _, hr, hc⟩ := hu f hf
    simp only [Fdd.points, hx, List.length_map]
    exact ⟨hr, hc⟩) (fun f hf => hu f (hs.subset hf)) hu hl

/-- **C55, more points.** And in particular if there is no noise and every point is among the others. -/
theorem C55_noiseless (h : Regular G ops) (ht : Tells (Dead G) D ops) (e : LogpdfU ops m .vfe us l r) (e' : LogpdfU ops m .vfe us' l r')
    (hs : pointsOf us ⊆ pointsOf us') (hu : ∀ f ∈ us, FitsF G f ∧ ∀ i < f.noise.r, ∀ j < f.noise.r, f.noise.e i j = 0)
    (hu' : ∀ f ∈ us', FitsF G f ∧ ∀ i < f.noise.r, ∀ j < f.noise.r, f.noise.e i j = 0) (hl : ∀ e ∈ l, FitsV G e) : r ≤ r' := by
  have key : ∀ us : List Fdd, (∀ f ∈ us, FitsF G f ∧ ∀ i < f.noise.r, ∀ j < f.noise.r, f.noise.e i j = 0) →
      ∀ i < (pointsOf us).length, ∀ j < (pointsOf us).length, (noiseOf us).e i j = 0 := by
    intro us
    induction us with
    | nil => exact fun _ i hi => absurd hi (Nat.not_lt_zero i)
    | cons f us ih =>
      intro hu i hi j hj
      obtain ⟨⟨xs, hx, _, hr, hc⟩, h0⟩ := hu f (by simp)
      have e1 : (pointsOf (f :: us)).length = xs.length + (pointsOf us).length := by simp [pointsOf, Fdd.points, hx]
      rw [e1] at hi hj
      show (f.noise.dsum (noiseOf us)).e i j = 0
      simp only [Mat.dsum, hr, hc]
      by_cases hi' : i < xs.length
      · by_cases hj' : j < xs.length
        · simpa [hi', hj'] using h0 i (hr ▸ hi') j (hr ▸ hj')
        · simp [hi', hj']
      · by_cases hj' : j < xs.length
        · simp [hi', hj']
        · simpa [hi', hj'] using ih (fun g hg => hu g (by simp [hg])) (i - xs.length) (by omega) (j - xs.length) (by omega)
  exact C55_regular h ht e e' (among_of_subset hs (key us hu) (key us' hu')) (fun f hf => (hu f hf).1) (fun f hf => (hu' f hf).1) hl

/-- **C55, exact.** If the data are among the inducing points, the bound is the log-density of the data. -/
theorem C55_exact (h : Regular G ops) (ht : Tells (Dead G) D ops) (e : LogpdfU ops m .vfe us l r) (e' : LogpdfU ops m .vfe us' l r')
    (e'' : Logpdf ops b m l r'') (hA : AtData us l) (ha : Among (pointsOf us) (noiseOf us) (pointsOf us') (noiseOf us')) (hf : WhiteNoise l)
    (hu : ∀ f ∈ us, FitsF G f) (hu' : ∀ f ∈ us', FitsF G f ∧ (f.noise.sq f.noise.r).PosSemidef) (hl : ∀ e ∈ l, FitsV G e) : r' = r'' := by
  refine le_antisymm (C41_regular h ht e' e'' hu' fun e he => ⟨hl e he, (hf e he).1⟩) ?_
  rw [← C40_elbo_regular h ht e e'' hA hf hu hl]
  exact C55_regular h ht e e' ha hu (fun f hf => (hu' f hf).1) hl

end

/-! ## Examples -/

/-- One of the points of `onto`. -/
noncomputable def half : Fdd := ⟨0, .num [[0]], ⟨1, 1, fun _ _ => 0⟩⟩

/-- The points of `onto`, and another one with noise. -/
noncomputable def beyond : Fdd := ⟨0, .num [[1], [0], [2]], ⟨3, 3, fun i j => if i = 0 ∧ j = 0 then 1 else 0⟩⟩

theorem half_posDef {ops : List Op} (hk : kernelAt (runOps ops {}) 0 0 0 = some affine) : ∀ A K,
    KernelCall (runOps ops {}) 0 0 0 (.num [[0]]) (.num [[0]]) A → A.add half.noise = some K → (K.sq K.r).PosDef := by
  intro A K hA hK
  have h' : KernelCall (runOps ops {}) 0 0 0 (.num [[0]]) (.num [[0]])
      ⟨1, 1, fun i j => affine.val (([[0]] : List Pt).getD i []) (([[0]] : List Pt).getD j [])⟩ := ⟨affine, 1, hk, rfl⟩
  rw [hA.unique h'] at hK
  cases hK
  have : Mat.sq ⟨1, 1, fun i j => affine.val (([[0]] : List Pt).getD i []) (([[0]] : List Pt).getD j []) + half.noise.e i j⟩ 1 =
      diagonal fun _ => 1 := by
    ext i j
    fin_cases i; fin_cases j
    simp [Mat.sq, affine, KExpr.val, half]
  show (Mat.sq ⟨1, 1, fun i j => affine.val (([[0]] : List Pt).getD i []) (([[0]] : List Pt).getD j []) + half.noise.e i j⟩ 1).PosDef
  rw [this]
  exact PosDef.diagonal fun _ => by norm_num

theorem beyond_posDef {ops : List Op} (hk : kernelAt (runOps ops {}) 0 0 0 = some affine) : ∀ A K,
    KernelCall (runOps ops {}) 0 0 0 (.num [[1], [0], [2]]) (.num [[1], [0], [2]]) A → A.add beyond.noise = some K → (K.sq K.r).PosDef := by
  intro A K hA hK
  have h' : KernelCall (runOps ops {}) 0 0 0 (.num [[1], [0], [2]]) (.num [[1], [0], [2]])
      ⟨3, 3, fun i j => affine.val (([[1], [0], [2]] : List Pt).getD i []) (([[1], [0], [2]] : List Pt).getD j [])⟩ := ⟨affine, 1, hk, rfl⟩
  rw [hA.unique h'] at hK
  cases hK
  show Matrix.PosDef (n := Fin 3) _
  refine PosDef.of_dotProduct_mulVec_pos ?_ fun v hv => ?_
  · ext i j
    fin_cases i <;> fin_cases j <;> simp [Mat.sq, beyond, affine, KExpr.val]
  · have hq : star v ⬝ᵥ (Mat.sq ⟨3, 3, fun i j => affine.val (([[1], [0], [2]] : List Pt).getD i []) (([[1], [0], [2]] : List Pt).getD j []) +
        beyond.noise.e i j⟩ 3 *ᵥ v) = (v 0 + v 1 + v 2) ^ 2 + (v 0 + 2 * v 2) ^ 2 + v 0 ^ 2 := by
      simp [dotProduct, mulVec, Fin.sum_univ_three, Mat.sq, beyond, affine, KExpr.val]
      ring
    refine lt_of_lt_of_eq ?_ hq.symm
    by_contra hc
    have h0 : v 0 = 0 := by nlinarith [sq_nonneg (v 0 + v 1 + v 2), sq_nonneg (v 0 + 2 * v 2), sq_nonneg (v 0)]
    have h2 : v 2 = 0 := by rw [h0] at hc; nlinarith [sq_nonneg (0 + v 1 + v 2), sq_nonneg (v 2)]
    have h1 : v 1 = 0 := by rw [h0, h2] at hc; nlinarith [sq_nonneg (v 1)]
    exact hv (by ext i; fin_cases i <;> simp [h0, h1, h2])

theorem half_fits : FitsF (off fun _ => False) half := ⟨_, rfl, rows_off not_false, rfl, rfl⟩
theorem onto_fits : FitsF (off fun _ => False) onto := ⟨_, rfl, rows_off not_false, rfl, rfl⟩
theorem beyond_fits : FitsF (off fun _ => False) beyond := ⟨_, rfl, rows_off not_false, rfl, rfl⟩

theorem half_noise : (half.noise.sq 1).PosSemidef := by
  have : half.noise.sq 1 = 0 := rfl
  rw [this]; exact .zero

theorem onto_noise : (onto.noise.sq 2).PosSemidef := by
  have : onto.noise.sq 2 = 0 := rfl
  rw [this]; exact .zero

theorem beyond_noise : (beyond.noise.sq 3).PosSemidef := by
  have : beyond.noise.sq 3 = diagonal fun i => if i = 0 then 1 else 0 := by
    ext i j
    fin_cases i <;> fin_cases j <;> simp [Mat.sq, beyond]
  rw [this]
  exact PosSemidef.diagonal fun i => by positivity

/-- C55 for `brief`: two inducing points are not worse than one of them. -/
example : ∃ r r', LogpdfU (brief .vfe) 0 .vfe [half] [gappy] r ∧ LogpdfU (brief .vfe) 0 .vfe [onto] [gappy] r' ∧ r ≤ r' := by
  obtain ⟨r, h⟩ := brief_elbo .vfe half rfl rfl rfl rfl half_noise (half_posDef rfl)
  obtain ⟨r', h'⟩ := brief_elbo .vfe onto rfl rfl rfl rfl onto_noise (onto_posDef rfl)
  refine ⟨r, r', h, h', C55_noiseless (brief_regular _) (brief_tells _) h h' ?_ ?_ ?_ gappy_fits⟩
  · simp [pointsOf, Fdd.points, half, onto]
  · intro f hf; cases List.mem_singleton.1 hf
    exact ⟨half_fits, fun _ _ _ _ => rfl⟩
  · intro f hf; cases List.mem_singleton.1 hf
    exact ⟨onto_fits, fun _ _ _ _ => rfl⟩

/-- C55 for `brief`: the data are among the inducing points, and one inducing point more does no harm. -/
example : ∃ r r', LogpdfU (brief .vfe) 0 .vfe [beyond] [gappy] r ∧ Logpdf (brief .vfe) ((brief .vfe).take 3) 0 [gappy] r' ∧ r = r' := by
  obtain ⟨r', h'⟩ := brief_logpdf .vfe
  obtain ⟨r, h⟩ := brief_elbo .vfe beyond rfl rfl rfl rfl beyond_noise (beyond_posDef rfl)
  obtain ⟨_, e⟩ := brief_elbo .vfe onto rfl rfl rfl rfl onto_noise (onto_posDef rfl)
  refine ⟨r, r', h, h', C55_exact (brief_regular _) (brief_tells _) e h h' onto_atData ?_ gappy_white ?_ ?_ gappy_fits⟩
  · refine ⟨(· + 1), fun i hi => ?_⟩
    have hi : i < 2 := hi
    refine ⟨Nat.succ_lt_succ hi, ?_, fun j hj => ?_⟩
    · interval_cases i <;> rfl
    · have hj : j < 2 := hj
      interval_cases i <;> interval_cases j <;> simp [noiseOf, Mat.blockDiag, Mat.dsum, onto, beyond, none2]
  · intro f hf; cases List.mem_singleton.1 hf
    exact onto_fits
  · intro f hf; cases List.mem_singleton.1 hf
    exact ⟨beyond_fits, beyond_noise⟩

end Stheno
