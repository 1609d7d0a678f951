import Verif.Blur
import Verif.Props.Apart
import Verif.Props.Sparse
import Verif.Stable

/-!
# C61: observations with more and more noise are missing observations
-/

namespace Stheno

open Matrix Filter Topology

/-- Numbers `w` for all values `y`: for available values these values, and for missing values whatever. -/
def Filled (y : Vals) (w : List ℝ) : Prop := List.Forall₂ (fun v a => ∀ b, v = some b → b = a) y w

/-- An observation with missing values, with numbers for all values: the observation with these numbers and additional independent noise of variance `t`
where values are missing. -/
noncomputable def blur (t : ℝ) (e : (Fdd × Vals) × List ℝ) : Fdd × Vals :=
  (⟨e.1.1.p, e.1.1.x, ⟨e.1.1.noise.r, e.1.1.noise.c, fun i j => e.1.1.noise.e i j + if i = j ∧ e.1.2.getD i none = none then t else 0⟩⟩, e.2.map some)

/-- The random variables that are observed, available or not. -/
noncomputable def spots (F : PId → RF RV) (l : List (Fdd × Vals)) : List RV :=
  l.flatMap fun e => match e.1.x with
    | .num xs => xs.map (pointOf (F e.1.p))
    | _ => []

section
variable {G : Dom} {D : PId → ℕ} {ops b : List Op} {m : MId} {l : List (Fdd × Vals)} {zss : List (List RV)}

theorem spots_length {F : PId → RF RV} (hl : ∀ e ∈ l, FitsV G e) : (spots F l).length = (l.flatMap (·.2)).length := by
  induction l with
  | nil => rfl
  | cons e l ih =>
    obtain ⟨xs, hx, _, _, _, h3⟩ := hl e (by simp)
    unfold spots at ih ⊢
    rw [List.flatMap_cons, List.flatMap_cons, List.length_append, List.length_append, ih fun e he => hl e (by simp [he]), hx, List.length_map, h3]

/-- The random variables for which values are available. -/
theorem Regular.spots (h : Regular G ops) (hl : ∀ e ∈ l, FitsV G e) (hb : (reading ops).Blocks m (l.map available) zss) :
    zss.flatten = pick (spots ((reading ops).F m) l) ((l.flatMap (·.2)).map Option.isSome) := by
  obtain ⟨a, ha⟩ := isMeas_exists (specOps ops {}) m
  have hr := canon_rowWise (elem_reach h.elem) m a ha
  induction l generalizing zss with
  | nil => cases hb; rfl
  | cons e l ih =>
    rw [List.map_cons] at hb
    cases hb with
    | cons e1 hb' =>
      obtain ⟨xs, hx, _, h1, h2, h3⟩ := hl e (by simp)
      have hn := (hl e (by simp)).fits
      obtain ⟨xs', hx', _, h1', _, _⟩ := hn
      unfold Stheno.spots at ih ⊢
      rw [List.flatten_cons, ih (fun g hg => hl g (by simp [hg])) hb', List.flatMap_cons, List.flatMap_cons, List.map_append, hx,
        pick_append (by simp [h3]), pick_map]
      congr 1
      have e2 := e1.1
      rw [hx'] at e2
      have := hr.point e2 (e1.2.1.symm.trans h1')
      rw [available_x hx] at hx'
      cases hx'
      exact this

theorem spots_congr {F F' : PId → RF RV} (h : ∀ e ∈ l, F e.1.p = F' e.1.p) : spots F l = spots F' l := by
  unfold spots
  exact List.flatMap_congr fun e he => by rw [h e he]

end

section
variable {G : Dom} {D : PId → ℕ} {ops b : List Op} {m : MId} {l : List ((Fdd × Vals) × List ℝ)} {zss : List (List RV)} {t : ℝ}

theorem Filled.length {y : Vals} {w : List ℝ} (h : Filled y w) : y.length = w.length := List.Forall₂.length_eq h

theorem blur_fits {e : (Fdd × Vals) × List ℝ} (h : FitsV G e.1) (hf : Filled e.1.2 e.2) : FitsV G (blur t e) := by
  obtain ⟨xs, hx, hc, h1, h2, h3⟩ := h
  exact ⟨xs, hx, hc, h1, h2, by simp [blur, ← hf.length, h3]⟩

theorem filled_all (hl : ∀ e ∈ l, Filled e.1.2 e.2) : Filled ((l.map (·.1)).flatMap (·.2)) (l.flatMap (·.2)) := by
  induction l with
  | nil => exact .nil
  | cons e l ih => exact List.rel_append (hl e (by simp)) (ih fun e he => hl e (by simp [he]))

theorem blur_values : (l.map (blur t)).flatMap (·.2) = (l.flatMap (·.2)).map some := by
  induction l with
  | nil => rfl
  | cons e l ih => rw [List.map_cons, List.flatMap_cons, ih, List.flatMap_cons, List.map_append]; rfl

theorem blur_spots {F : PId → RF RV} : spots F (l.map (blur t)) = spots F (l.map (·.1)) := by
  unfold spots
  rw [List.flatMap_map, List.flatMap_map]
  rfl

/-- The additional noise. -/
theorem blur_noise (hl : ∀ e ∈ l, FitsV G e.1) (i j : ℕ) (hi : i < ((l.map (·.1)).flatMap (·.2)).length) (hj : j < ((l.map (·.1)).flatMap (·.2)).length) :
    (Mat.blockDiag ((l.map (blur t)).map (·.1.noise))).e i j =
      (Mat.blockDiag ((l.map (·.1)).map (·.1.noise))).e i j + if i = j ∧ ((l.map (·.1)).flatMap (·.2)).getD i none = none then t else 0 := by
  induction l generalizing i j with
  | nil => cases hi
  | cons e l ih =>
    obtain ⟨xs, hx, _, h1, h2, h3⟩ := hl e (by simp)
    rw [List.map_cons, List.flatMap_cons, List.length_append] at hi hj
    simp only [List.map_cons, Mat.blockDiag, List.flatMap_cons]
    show (if i < e.1.1.noise.r then if j < e.1.1.noise.c then e.1.1.noise.e i j + _ else 0 else if j < e.1.1.noise.c then 0 else _) =
      (if i < e.1.1.noise.r then if j < e.1.1.noise.c then e.1.1.noise.e i j else 0 else if j < e.1.1.noise.c then 0 else _) + _
    rw [h1, h2]
    by_cases c1 : i < xs.length <;> by_cases c2 : j < xs.length
    · simp only [if_pos c1, if_pos c2]
      rw [List.getD_append _ _ _ _ (by omega)]
    · rw [if_pos c1, if_pos c1, if_neg c2, if_neg c2, if_neg (by omega), add_zero]
    · rw [if_neg c1, if_neg c1, if_pos c2, if_pos c2, if_neg (by omega), add_zero]
    · rw [if_neg c1, if_neg c1, if_neg c2, if_neg c2]
      have := ih (fun e he => hl e (by simp [he])) (i - xs.length) (j - xs.length) (by omega) (by omega)
      show (Mat.blockDiag ((l.map (blur t)).map (·.1.noise))).e (i - e.1.1.noise.r) (j - e.1.1.noise.c) = _
      rw [h1, h2, this, List.getD_append_right _ _ _ _ (by omega), h3]
      congr 1
      have : (i - xs.length = j - xs.length) ↔ i = j := by omega
      simp only [this]

theorem positions_some {w : List ℝ} : positions ((w.map some).map Option.isSome) = List.range w.length := by
  rw [positions_all (by simp)]
  simp

/-- Observations with more noise where values are missing: what is observed, the noise and the data. -/
theorem Regular.blur_parts (h : Regular G ops) (hl : ∀ e ∈ l, FitsV G e.1 ∧ Filled e.1.2 e.2)
    (hb : (reading ops).Blocks m ((l.map (blur t)).map available) zss) :
    zss.flatten = Stheno.spots ((reading ops).F m) (l.map (·.1)) ∧
    (∀ i j, i < ((l.map (·.1)).flatMap (·.2)).length → j < ((l.map (·.1)).flatMap (·.2)).length →
      (Mat.blockDiag (((l.map (blur t)).map available).map (·.1.noise))).e i j =
        (Mat.blockDiag ((l.map (·.1)).map (·.1.noise))).e i j + if i = j ∧ ((l.map (·.1)).flatMap (·.2)).getD i none = none then t else 0) ∧
    ((l.map (blur t)).map available).flatMap (·.2) = l.flatMap (·.2) := by
  have hf : ∀ e ∈ l.map (blur t), FitsV G e := by
    intro e he
    obtain ⟨e', he', rfl⟩ := List.mem_map.1 he
    exact blur_fits (hl e' he').1 (hl e' he').2
  have hlen := (filled_all fun e he => (hl e he).2).length
  refine ⟨?_, fun i j hi hj => ?_, ?_⟩
  · rw [h.spots hf hb, blur_spots, pick_all]
    · rw [spots_length (G := G) (by simpa using fun e he => (hl e he).1), blur_values, List.length_map, List.length_map, hlen]
    · rw [blur_values]; simp
  · have hav := blockDiag_available hf
    rw [blur_values, positions_some] at hav
    have := hav.e i (by rw [← hav.r]; simp only [Mat.sub2, List.length_range]; omega) j (by rw [← hav.c]; simp only [Mat.sub2, List.length_range]; omega)
    rw [← this, ← blur_noise (fun e he => (hl e he).1) i j hi hj]
    simp only [Mat.sub2]
    rw [List.getD_eq_getElem?_getD, List.getD_eq_getElem?_getD, List.getElem?_range (by omega), List.getElem?_range (by omega)]
    rfl
  · rw [List.flatMap_map]
    show (l.map (blur t)).flatMap (fun e => e.2.filterMap id) = _
    rw [← List.filterMap_flatMap, blur_values, List.filterMap_map]
    simp

end

/-- The available values among all. -/
theorem retains_mask {W zs0 : List RV} {ys : Vals} {ws y0 : List ℝ} {N N0 : Mat} (hW : W.length = ys.length) (hf : Filled ys ws)
    (hN : (N.sub2 (positions (ys.map Option.isSome)) (positions (ys.map Option.isSome))).Eqv N0) (hz : zs0 = pick W (ys.map Option.isSome))
    (hy : y0 = ys.filterMap id) :
    ∃ f : Fin zs0.length → Fin W.length, Retains W N ws zs0 N0 y0 f ∧ ∀ i : Fin W.length, i ∉ Set.range f ↔ ys.getD i none = none := by
  have hp : zs0 = entries 0 W (positions (ys.map Option.isSome)) := by rw [hz, pick_entries 0 (by simp [hW])]
  have hlen : zs0.length = (positions (ys.map Option.isSome)).length := by rw [hp]; simp [entries]
  have hlt : ∀ i : Fin zs0.length, (positions (ys.map Option.isSome)).getD i 0 < W.length := by
    intro i
    rw [getD_lt (hlen ▸ i.2), hW]
    have := positions_lt _ (List.getElem_mem (hlen ▸ i.2 : (i : ℕ) < (positions (ys.map Option.isSome)).length))
    simpa using this
  have hnd : (positions (ys.map Option.isSome)).Nodup := List.nodup_range.filter _
  refine ⟨fun i => ⟨_, hlt i⟩, ⟨?_, ?_, ?_, ?_⟩, ?_⟩
  · intro i j e
    have e := congrArg Fin.val e
    simp only at e
    rw [getD_lt (hlen ▸ i.2), getD_lt (hlen ▸ j.2)] at e
    exact Fin.ext ((hnd.getElem_inj_iff).1 e)
  · rintro ⟨i, hi⟩
    have h1 : zs0.getD i 0 = W.getD ((positions (ys.map Option.isSome)).getD i 0) 0 := by
      have hi' : i < (positions (ys.map Option.isSome)).length := hlen ▸ hi
      rw [hp, entries, getD_lt (by simpa using hi'), List.getElem_map, getD_lt hi']
    rw [getD_lt hi, getD_lt (hlt ⟨i, hi⟩)] at h1
    exact h1.symm
  · intro i j
    exact hN.e i (by rw [← hN.r]; exact lt_of_lt_of_eq i.2 hlen) j (by rw [← hN.c]; exact lt_of_lt_of_eq j.2 hlen)
  · intro i
    have hi : (i : ℕ) < (positions (ys.map Option.isSome)).length := hlen ▸ i.2
    rw [hy, filterMap_pick, pick_entries none (by simp)]
    have hm := List.getElem_mem hi
    have hb : ((positions (ys.map Option.isSome))[(i : ℕ)]) < ys.length := by simpa using positions_lt _ hm
    have hs : (ys[((positions (ys.map Option.isSome))[(i : ℕ)])]).isSome = true := by
      have := (List.mem_filter.1 hm).2
      simpa [List.getD_eq_getElem?_getD, hb] using this
    obtain ⟨a, ha⟩ := Option.isSome_iff_exists.1 hs
    have hwb : ((positions (ys.map Option.isSome))[(i : ℕ)]) < ws.length := hf.length ▸ hb
    have := List.Forall₂.get hf hb hwb a ha
    simp only [entries, List.getD_eq_getElem?_getD, List.getElem?_map, List.getElem?_eq_getElem hi, Option.map_some, Option.getD_some,
      List.getElem?_eq_getElem hb, List.getElem?_eq_getElem hwb, ha]
    exact this.symm
  · intro i
    rw [not_iff_comm]
    have hb : (i : ℕ) < ys.length := hW ▸ i.2
    constructor
    · intro hne
      have hs : (i : ℕ) ∈ positions (ys.map Option.isSome) := by
        refine List.mem_filter.2 ⟨by simpa using hb, ?_⟩
        have := Option.isSome_iff_ne_none.2 hne
        simpa [List.getD_eq_getElem?_getD, hb] using this
      obtain ⟨k, hk, e⟩ := List.getElem_of_mem hs
      exact ⟨⟨k, hlen ▸ hk⟩, Fin.ext (by show (positions (ys.map Option.isSome)).getD k 0 = _; rw [getD_lt hk, e])⟩
    · rintro ⟨k, rfl⟩
      have hk : (k : ℕ) < (positions (ys.map Option.isSome)).length := hlen ▸ k.2
      have := (List.mem_filter.1 (List.getElem_mem hk)).2
      simp only [getD_lt hk]
      intro hn
      rw [List.getD_eq_getElem?_getD, List.getElem?_map] at this
      rw [List.getD_eq_getElem?_getD] at hn
      cases hq : ys[(positions (ys.map Option.isSome))[(k : ℕ)]]? with
      | none => rw [hq] at this; simp at this
      | some v =>
        rw [hq] at this hn
        simp only [Option.getD_some] at hn
        rw [hn] at this
        simp at this

section
variable {G : Dom} {D : PId → ℕ} {b ops b1 : List Op} {ops' b1' : ℝ → List Op} {m m1 : MId} {m1' : ℝ → MId} {l : List ((Fdd × Vals) × List ℝ)} {q q' : PId}
  {xs ys : List Pt} {r : ℝ} {r' : ℝ → ℝ}

theorem Regular.stable (h : Regular G ops) (hb : b <+: ops) (hm : HasMeasure (runOps b {}) m) :
    (reading ops).S m = (reading b).S m ∧ ∀ p, Attached (runOps b {}) m p → (reading ops).F m p = (reading b).F m p := by
  obtain ⟨t, rfl⟩ := hb
  have := reading_stable h.elem (fun before m obs after e => h.toTame.obs before m obs (after ++ t) (by rw [e]; simp)) m
  exact ⟨this.1 hm, this.2⟩

/-- Conditioning in a program that continues `b` on observations with more noise where values are missing: the update. -/
theorem Conditioned.blurred {ops b1 : List Op} {m1 : MId} {t : ℝ} (h : Regular G ops) (ht : Tells (Dead G) D ops) (hb : b <+: b1)
    (hm : HasMeasure (runOps b {}) m) (hl : ∀ e ∈ l, FitsV G e.1 ∧ Filled e.1.2 e.2 ∧ Attached (runOps b {}) m e.1.1.p)
    (c : Conditioned ops b1 m (l.map (blur t)) m1) :
    (∀ q, Attached (runOps b {}) m q → (reading ops).F m1 q = (reading b).F m q ∧ Attached (runOps ops {}) m1 q) ∧ ∃ N : Mat,
    (∀ i j, i < ((l.map (·.1)).flatMap (·.2)).length → j < ((l.map (·.1)).flatMap (·.2)).length → N.e i j =
      (Mat.blockDiag ((l.map (·.1)).map (·.1.noise))).e i j + if i = j ∧ ((l.map (·.1)).flatMap (·.2)).getD i none = none then t else 0) ∧
    IsUpdate ((reading b).S m) ((reading ops).S m1) (spots ((reading b).F m) (l.map (·.1))) N (l.flatMap (·.2)) ∧
      (noisyGram ((reading b).S m) (spots ((reading b).F m) (l.map (·.1))) N).PosDef := by
  have hf : ∀ e ∈ l.map (blur t), FitsV G e := by
    intro e he
    obtain ⟨e', he', rfl⟩ := List.mem_map.1 he
    exact blur_fits (hl e' he').1 (hl e' he').2.1
  obtain ⟨bq, o, p1, g, ho, ha⟩ := c.gives ht hf
  have hbo : b <+: ops := by
    obtain ⟨after, e⟩ := g.split
    exact (hb.trans p1).trans ⟨_, e.symm⟩
  obtain ⟨eS, eF⟩ := h.stable hbo hm
  have at1 : ∀ e ∈ (l.map (blur t)).map available, Attached (runOps ops {}) m e.1.p := fun e he => by
    obtain ⟨e', he', rfl⟩ := List.mem_map.1 he
    exact g.attached_prior (ha e' he')
  obtain ⟨zss, hz⟩ := h.blocks (fits_available hf) at1
  obtain ⟨u1, q1⟩ := g.blocks_any h.reads h.firm ho hz (fits_available hf)
  obtain ⟨h1, h2, h3⟩ := h.blur_parts (fun e he => ⟨(hl e he).1, (hl e he).2.1⟩) hz
  rw [spots_congr (F' := (reading b).F m) fun e he => by
    obtain ⟨e', he', rfl⟩ := List.mem_map.1 he
    exact eF _ (hl e' he').2.2] at h1
  rw [h1, eS] at u1 q1
  rw [h3] at u1
  refine ⟨fun q hq => ⟨?_, g.attached (attached_pre hq (hb.trans p1))⟩, _, h2, u1, q1⟩
  rw [(g.law h.reads).1 q (attached_pre hq (hb.trans p1)), eF q hq]

/-- Conditioning in a program that continues `b` on observations with missing values: the update. -/
theorem Conditioned.masked {l : List (Fdd × Vals)} (h : Regular G ops) (ht : Tells (Dead G) D ops) (hb : b <+: b1)
    (hm : HasMeasure (runOps b {}) m) (hl : ∀ e ∈ l, FitsV G e ∧ Attached (runOps b {}) m e.1.p) (c : Conditioned ops b1 m l m1) :
    (∀ q, Attached (runOps b {}) m q → (reading ops).F m1 q = (reading b).F m q ∧ Attached (runOps ops {}) m1 q) ∧
    IsUpdate ((reading b).S m) ((reading ops).S m1) (pick (spots ((reading b).F m) l) ((l.flatMap (·.2)).map Option.isSome))
      (Mat.blockDiag ((l.map available).map (·.1.noise))) ((l.flatMap (·.2)).filterMap id) ∧
    (noisyGram ((reading b).S m) (pick (spots ((reading b).F m) l) ((l.flatMap (·.2)).map Option.isSome))
      (Mat.blockDiag ((l.map available).map (·.1.noise)))).PosDef := by
  obtain ⟨bq, o, p1, g, ho, ha⟩ := c.gives ht fun e he => (hl e he).1
  have hbo : b <+: ops := by
    obtain ⟨after, e⟩ := g.split
    exact (hb.trans p1).trans ⟨_, e.symm⟩
  obtain ⟨eS, eF⟩ := h.stable hbo hm
  have at1 : ∀ e ∈ l.map available, Attached (runOps ops {}) m e.1.p := fun e he => by
    obtain ⟨e', he', rfl⟩ := List.mem_map.1 he
    exact g.attached_prior (ha e' he')
  have hfa := fits_available fun e he => (hl e he).1
  obtain ⟨zss, hz⟩ := h.blocks hfa at1
  obtain ⟨u1, q1⟩ := g.blocks_any h.reads h.firm ho hz hfa
  have h1 := h.spots (fun e he => (hl e he).1) hz
  rw [spots_congr (F' := (reading b).F m) fun e he => eF _ (hl e he).2] at h1
  have hy : (l.map available).flatMap (·.2) = (l.flatMap (·.2)).filterMap id := by
    rw [List.flatMap_map, List.filterMap_flatMap]; rfl
  rw [h1, eS] at u1 q1
  rw [hy] at u1
  refine ⟨fun q hq => ⟨?_, g.attached (attached_pre hq (hb.trans p1))⟩, u1, q1⟩
  rw [(g.law h.reads).1 q (attached_pre hq (hb.trans p1)), eF q hq]

/-- The noise of observations with missing values, and more noise where values are missing. -/
noncomputable def blurNoise (l : List ((Fdd × Vals) × List ℝ)) (t : ℝ) : Mat :=
  ⟨((l.map (·.1)).flatMap (·.2)).length, ((l.map (·.1)).flatMap (·.2)).length, fun i j => (Mat.blockDiag ((l.map (·.1)).map (·.1.noise))).e i j +
    if i = j ∧ ((l.map (·.1)).flatMap (·.2)).getD i none = none then t else 0⟩

/-- Limits of calls, for any measure that is the update with the available values. -/
theorem blur_calls (h : Regular G ops) (h' : ∀ᶠ t in atTop, Regular G (ops' t)) (ht' : ∀ᶠ t in atTop, Tells (Dead G) D (ops' t))
    (hb' : ∀ᶠ t in atTop, b <+: b1' t) (hm : HasMeasure (runOps b {}) m)
    (hl : ∀ e ∈ l, FitsV G e.1 ∧ Filled e.1.2 e.2 ∧ Attached (runOps b {}) m e.1.1.p)
    (c' : ∀ᶠ t in atTop, Conditioned (ops' t) (b1' t) m (l.map (blur t)) (m1' t))
    (f0 : ∀ q, Attached (runOps b {}) m q → (reading ops).F m1 q = (reading b).F m q ∧ Attached (runOps ops {}) m1 q)
    (u0 : IsUpdate ((reading b).S m) ((reading ops).S m1) (pick (spots ((reading b).F m) (l.map (·.1))) (((l.map (·.1)).flatMap (·.2)).map Option.isSome))
      (Mat.blockDiag (((l.map (·.1)).map available).map (·.1.noise))) (((l.map (·.1)).flatMap (·.2)).filterMap id))
    (p0 : (noisyGram ((reading b).S m) (pick (spots ((reading b).F m) (l.map (·.1))) (((l.map (·.1)).flatMap (·.2)).map Option.isSome))
      (Mat.blockDiag (((l.map (·.1)).map available).map (·.1.noise)))).PosDef)
    (hq : Attached (runOps b {}) m q) (hq' : Attached (runOps b {}) m q') (hxs : Rows (G q) xs) (hys : Rows (G q') ys)
    {v : List ℝ} {v' : ℝ → List ℝ} {A : Mat} {A' : ℝ → Mat} (hv : MeanCall (runOps ops {}) m1 q (.num xs) v)
    (hv' : ∀ᶠ t in atTop, MeanCall (runOps (ops' t) {}) (m1' t) q (.num xs) (v' t)) (hA : KernelCall (runOps ops {}) m1 q q' (.num xs) (.num ys) A)
    (hA' : ∀ᶠ t in atTop, KernelCall (runOps (ops' t) {}) (m1' t) q q' (.num xs) (.num ys) (A' t)) :
    (∀ i < xs.length, Tendsto (fun t => (v' t).getD i 0) atTop (𝓝 (v.getD i 0))) ∧
    ∀ i < xs.length, ∀ j < ys.length, Tendsto (fun t => (A' t).e i j) atTop (𝓝 (A.e i j)) := by
  classical
  have hf1 : ∀ e ∈ l.map (·.1), FitsV G e := fun e he => by
    obtain ⟨e', he', rfl⟩ := List.mem_map.1 he
    exact (hl e' he').1
  have hW := spots_length (F := (reading b).F m) hf1
  have hfill := filled_all fun e he => (hl e he).2.1
  obtain ⟨f, hR, hr⟩ := retains_mask hW hfill (blockDiag_available hf1) rfl rfl
  have key := u0.blurred (T := fun t => (reading (ops' t)).S (m1' t)) (N' := blurNoise l) p0 (by
        rw [filterMap_length, ← pick_length (xs := spots ((reading b).F m) (l.map (·.1))) (by simp [hW])]) (hfill.length.symm.trans hW.symm) ?_ hR ?_
  · obtain ⟨hE, hC⟩ := key
    obtain ⟨e0, a0⟩ := f0 q hq
    obtain ⟨e0', a0'⟩ := f0 q' hq'
    obtain ⟨vs, hF, lv⟩ := h.value a0 hxs
    obtain ⟨ws, hF', lw⟩ := h.value a0' hys
    have hFb := hF
    have hFb' := hF'
    rw [e0] at hFb
    rw [e0'] at hFb'
    refine ⟨fun i hi => ?_, fun i hi j hj => ?_⟩ <;> have hi' : i < vs.length := lv ▸ hi
    · rw [h.mean_eq a0 hxs hv hF]
      refine Tendsto.congr' ?_ (by simpa [List.getD_eq_getElem?_getD, List.getElem?_eq_getElem hi'] using hE (vs.getD i 0))
      filter_upwards [h', ht', hb', c', hv'] with t k kt kb kc kv
      obtain ⟨f1, -⟩ := kc.blurred k kt kb hm hl
      have := k.mean_eq (f1 q hq).2 hxs kv ((f1 q hq).1 ▸ hFb)
      show _ = (v' t).getD i 0
      rw [this]
      simp [List.getD_eq_getElem?_getD, List.getElem?_eq_getElem hi']
    · have hj' : j < ws.length := lw ▸ hj
      rw [(h.kernel_eq a0 a0' hxs hys hA hF hF').e i hi' j hj']
      refine Tendsto.congr' ?_ (hC (vs.getD i 0) (ws.getD j 0))
      filter_upwards [h', ht', hb', c', hA'] with t k kt kb kc kA
      obtain ⟨f1, -⟩ := kc.blurred k kt kb hm hl
      exact ((k.kernel_eq (f1 q hq).2 (f1 q' hq').2 hxs hys kA ((f1 q hq).1 ▸ hFb) ((f1 q' hq').1 ▸ hFb')).e i hi' j hj').symm
  · filter_upwards [h', ht', hb', c'] with t k kt kb kc
    obtain ⟨-, N, hN, u1, q1⟩ := kc.blurred k kt kb hm hl
    have he : ∀ i < (spots ((reading b).F m) (l.map (·.1))).length, ∀ j < (spots ((reading b).F m) (l.map (·.1))).length, N.e i j = (blurNoise l t).e i j :=
      fun i hi j hj => hN i j (hW ▸ hi) (hW ▸ hj)
    exact ⟨u1.congr hW.symm hW.symm he, noisyGram_congr he ▸ q1⟩
  · intro t i j
    simp only [hr, Fin.ext_iff]
    rfl

/-- **C61, missing values.** For regular programs which continue the same program: as the variance of additional independent noise on some values goes to infinity, means and
kernels of the measure conditioned on all values go to those of the measure conditioned on the values without these, whatever these are; in all notations. -/
theorem C61_missing (h : Regular G ops) (h' : ∀ᶠ t in atTop, Regular G (ops' t)) (ht : Tells (Dead G) D ops) (ht' : ∀ᶠ t in atTop, Tells (Dead G) D (ops' t))
    (hb : b <+: b1) (hb' : ∀ᶠ t in atTop, b <+: b1' t) (hm : HasMeasure (runOps b {}) m)
    (hl : ∀ e ∈ l, FitsV G e.1 ∧ Filled e.1.2 e.2 ∧ Attached (runOps b {}) m e.1.1.p)
    (c : Conditioned ops b1 m (l.map (·.1)) m1) (c' : ∀ᶠ t in atTop, Conditioned (ops' t) (b1' t) m (l.map (blur t)) (m1' t))
    (hq : Attached (runOps b {}) m q) (hq' : Attached (runOps b {}) m q') (hxs : Rows (G q) xs) (hys : Rows (G q') ys)
    {v : List ℝ} {v' : ℝ → List ℝ} {A : Mat} {A' : ℝ → Mat} (hv : MeanCall (runOps ops {}) m1 q (.num xs) v)
    (hv' : ∀ᶠ t in atTop, MeanCall (runOps (ops' t) {}) (m1' t) q (.num xs) (v' t)) (hA : KernelCall (runOps ops {}) m1 q q' (.num xs) (.num ys) A)
    (hA' : ∀ᶠ t in atTop, KernelCall (runOps (ops' t) {}) (m1' t) q q' (.num xs) (.num ys) (A' t)) :
    (∀ i < xs.length, Tendsto (fun t => (v' t).getD i 0) atTop (𝓝 (v.getD i 0))) ∧
    ∀ i < xs.length, ∀ j < ys.length, Tendsto (fun t => (A' t).e i j) atTop (𝓝 (A.e i j)) := by
  obtain ⟨f0, u0, p0⟩ := c.masked h ht hb hm fun e he => by
    obtain ⟨e', he', rfl⟩ := List.mem_map.1 he
    exact ⟨(hl e' he').1, (hl e' he').2.2⟩
  exact blur_calls h h' ht' hb' hm hl c' f0 u0 p0 hq hq' hxs hys hv hv' hA hA'

/-- **C61, nothing left.** As the variance of additional independent noise on all values goes to infinity, means and kernels of the conditioned measure go to those of the prior. -/
theorem C61_prior (h : Regular G ops) (h' : ∀ᶠ t in atTop, Regular G (ops' t)) (ht' : ∀ᶠ t in atTop, Tells (Dead G) D (ops' t))
    (hb : b <+: ops) (hb' : ∀ᶠ t in atTop, b <+: b1' t) (hm : HasMeasure (runOps b {}) m)
    (hl : ∀ e ∈ l, FitsV G e.1 ∧ Filled e.1.2 e.2 ∧ Attached (runOps b {}) m e.1.1.p) (hn : ∀ e ∈ l, ∀ y ∈ e.1.2, y = none)
    (c' : ∀ᶠ t in atTop, Conditioned (ops' t) (b1' t) m (l.map (blur t)) (m1' t))
    (hq : Attached (runOps b {}) m q) (hq' : Attached (runOps b {}) m q') (hxs : Rows (G q) xs) (hys : Rows (G q') ys)
    {v : List ℝ} {v' : ℝ → List ℝ} {A : Mat} {A' : ℝ → Mat} (hv : MeanCall (runOps ops {}) m q (.num xs) v)
    (hv' : ∀ᶠ t in atTop, MeanCall (runOps (ops' t) {}) (m1' t) q (.num xs) (v' t)) (hA : KernelCall (runOps ops {}) m q q' (.num xs) (.num ys) A)
    (hA' : ∀ᶠ t in atTop, KernelCall (runOps (ops' t) {}) (m1' t) q q' (.num xs) (.num ys) (A' t)) :
    (∀ i < xs.length, Tendsto (fun t => (v' t).getD i 0) atTop (𝓝 (v.getD i 0))) ∧
    ∀ i < xs.length, ∀ j < ys.length, Tendsto (fun t => (A' t).e i j) atTop (𝓝 (A.e i j)) := by
  obtain ⟨eS, eF⟩ := h.stable hb hm
  have hn' : ∀ y ∈ (l.map (·.1)).flatMap (·.2), y = none := by
    intro y hy
    obtain ⟨e, he, hy⟩ := List.mem_flatMap.1 hy
    obtain ⟨e', he', rfl⟩ := List.mem_map.1 he
    exact hn e' he' y hy
  have hf1 : ∀ e ∈ l.map (·.1), FitsV G e := fun e he => by
    obtain ⟨e', he', rfl⟩ := List.mem_map.1 he
    exact (hl e' he').1
  have hp : pick (spots ((reading b).F m) (l.map (·.1))) (((l.map (·.1)).flatMap (·.2)).map Option.isSome) = [] := by
    rw [← List.length_eq_zero_iff, pick_length (by rw [spots_length hf1, List.length_map]), List.count_eq_zero]
    simp only [List.mem_map, not_exists, not_and]
    intro y hy
    rw [hn' y hy]
    simp
  have hav := blockDiag_available hf1
  have hpos : positions (((l.map (·.1)).flatMap (·.2)).map Option.isSome) = [] := by
    rw [← List.length_eq_zero_iff, positions_length, List.count_eq_zero]
    simp only [List.mem_map, not_exists, not_and]
    intro y hy
    rw [hn' y hy]
    simp
  rw [hpos] at hav
  have p0 : ∀ N, (noisyGram ((reading b).S m) [] N).PosDef := fun N => by
    have : noisyGram ((reading b).S m) [] N = 1 := by
      ext i
      exact i.elim0
    rw [this]
    exact Matrix.PosDef.one
  refine blur_calls h h' ht' hb' hm hl c' (fun q hq => ⟨eF q hq, attached_pre hq hb⟩) ?_ (by rw [hp]; exact p0 _) hq hq' hxs hys hv hv' hA hA'
  rw [hp, eS]
  exact ⟨hav.r.symm, hav.c.symm, fun _ u v => by simp [quadSum], fun _ _ u => by simp⟩

/-- **C61, log-densities.** As the variance of additional independent noise on some values goes to infinity, the log-density of all values, without that of as many values of
noise at zero, goes to the log-density of the values without these. -/
theorem C61_logpdf (h : Regular G ops) (h' : ∀ᶠ t in atTop, Regular G (ops' t)) (ht : Tells (Dead G) D ops) (ht' : ∀ᶠ t in atTop, Tells (Dead G) D (ops' t))
    (hb : b <+: ops) (hb' : ∀ᶠ t in atTop, b <+: ops' t) (hm : HasMeasure (runOps b {}) m)
    (hl : ∀ e ∈ l, FitsV G e.1 ∧ Filled e.1.2 e.2 ∧ Attached (runOps b {}) m e.1.1.p)
    (c : Logpdf ops b1 m (l.map (·.1)) r) (c' : ∀ᶠ t in atTop, Logpdf (ops' t) (b1' t) m (l.map (blur t)) (r' t)) :
    Tendsto (fun t => r' t + ((l.map (·.1)).flatMap (·.2)).countP Option.isNone / 2 * Real.log (2 * Real.pi * t)) atTop (𝓝 r) := by
  classical
  have hf1 : ∀ e ∈ l.map (·.1), FitsV G e := fun e he => by
    obtain ⟨e', he', rfl⟩ := List.mem_map.1 he
    exact (hl e' he').1
  have hat : ∀ e ∈ l.map (·.1), Attached (runOps b {}) m e.1.p := fun e he => by
    obtain ⟨e', he', rfl⟩ := List.mem_map.1 he
    exact (hl e' he').2.2
  have hW := spots_length (F := (reading b).F m) hf1
  have hfill := filled_all fun e he => (hl e he).2.1
  obtain ⟨f, hR, hr⟩ := retains_mask hW hfill (blockDiag_available hf1) rfl rfl
  obtain ⟨eS, eF⟩ := h.stable hb hm
  obtain ⟨zss, hz⟩ := h.blocks (m := m) (fits_available hf1) fun e he => by
    obtain ⟨e', he', rfl⟩ := List.mem_map.1 he
    exact attached_pre (hat e' he') hb
  obtain ⟨v0, p0⟩ := c.value h.reads ht hf1 hz
  have h1 := h.spots hf1 hz
  rw [spots_congr (F' := (reading b).F m) fun e he => eF _ (hat e he)] at h1
  have hy : ((l.map (·.1)).map available).flatMap (·.2) = ((l.map (·.1)).flatMap (·.2)).filterMap id := by
    rw [List.flatMap_map, List.filterMap_flatMap]; rfl
  rw [h1, eS] at v0 p0
  rw [hy] at v0
  have hblur : ∀ᶠ t in atTop, r' t = (obsNormal ((reading b).S m) (Stheno.spots ((reading b).F m) (l.map (·.1))) (blurNoise l t)).logpdfFull (fun i => (l.flatMap (·.2)).getD i 0) ∧
      (noisyGram ((reading b).S m) (Stheno.spots ((reading b).F m) (l.map (·.1))) (blurNoise l t)).PosDef := by
    filter_upwards [h', ht', hb', c'] with t k kt kb kc
    have hf : ∀ e ∈ l.map (blur t), FitsV G e := by
      intro e he
      obtain ⟨e', he', rfl⟩ := List.mem_map.1 he
      exact blur_fits (hl e' he').1 (hl e' he').2.1
    obtain ⟨eS', eF'⟩ := k.stable kb hm
    obtain ⟨zss', hz'⟩ := k.blocks (m := m) (fits_available hf) fun e he => by
      obtain ⟨e', he', rfl⟩ := List.mem_map.1 he
      obtain ⟨e'', he'', rfl⟩ := List.mem_map.1 he'
      exact attached_pre (hl e'' he'').2.2 kb
    obtain ⟨v1, q1⟩ := kc.value k.reads kt hf hz'
    obtain ⟨k1, k2, k3⟩ := k.blur_parts (fun e he => ⟨(hl e he).1, (hl e he).2.1⟩) hz'
    rw [spots_congr (F' := (reading b).F m) fun e he => eF' _ (hat e he)] at k1
    rw [k1, eS'] at v1 q1
    rw [k3] at v1
    have he : ∀ i < (Stheno.spots ((reading b).F m) (l.map (·.1))).length, ∀ j < (Stheno.spots ((reading b).F m) (l.map (·.1))).length,
        (Mat.blockDiag (((l.map (blur t)).map available).map (·.1.noise))).e i j = (blurNoise l t).e i j := fun i hi j hj => k2 i j (hW ▸ hi) (hW ▸ hj)
    have hg := noisyGram_congr (S := (reading b).S m) he
    refine ⟨v1.trans ?_, hg ▸ q1⟩
    unfold obsNormal
    rw [hg]
  rw [v0]
  refine (hR.logpdf (N' := blurNoise l) (k := ((l.map (·.1)).flatMap (·.2)).countP Option.isNone) p0 (hblur.mono fun t h => h.2) (fun t i j => by
    simp only [hr, Fin.ext_iff]
    rfl) ?_).congr' (hblur.mono fun t h => by rw [← h.1])
  rw [hW, pick_length (by rw [hW, List.length_map])]
  generalize (l.map (·.1)).flatMap (·.2) = y
  induction y with
  | nil => rfl
  | cons a y ih => cases a <;> simp_all <;> omega

end

/-! ## Examples -/

/-- A GP, the posterior given two values of three, and the process of which log-densities are computed. -/
noncomputable def faint : List Op :=
  [.gp .zero (.prim fun _ _ => 1) none none] ++ [.condition 0 (.exact 0 (.num [[0], [2]]) (rows (eye 3) [0, 2]) [1, 3])] ++ [.call 0 0]

/-- The same with a third value, which has much noise. -/
noncomputable def faintly (t : ℝ) : List Op :=
  [.gp .zero (.prim fun _ _ => 1) none none] ++ [.condition 0 (.exact 0 (.num [[0], [1], [2]]) (blur t (gappy, [1, 7, 3])).1.noise [1, 7, 3])] ++ [.call 0 0]

theorem faint_call {ops : List Op} (h : Solid (fun _ _ => True) ops) : Regular (fun _ _ => True) (ops ++ [.call 0 0]) :=
  (C46_extend h (o := .call 0 0) trivial (fun _ _ h => by cases h) (fun m e he _ => by
    simp only [Op.written, List.mem_singleton] at he
    subst he
    exact fun x _ => trivial) fun _ _ _ h => by cases h).regular

theorem faint_regular : Regular (fun _ _ => True) faint :=
  faint_call (C46_condition (m := 0) (p := 0) flat_solid (attached_iff.2 rfl) (by simp [Rows]) rfl rfl rfl (by
    have : (rows (eye 3) [0, 2]).sq 2 = 1 := by
      ext i j
      fin_cases i <;> fin_cases j <;> simp [Mat.sq, rows, eye]
    show ((rows (eye 3) [0, 2]).sq 2).PosDef
    rw [this]
    exact PosDef.one))

theorem blur_posDef {t : ℝ} (h : 0 ≤ t) : ((blur t (gappy, [1, 7, 3])).1.noise.sq 3).PosDef := by
  have : (blur t (gappy, [1, 7, 3])).1.noise.sq 3 = (eye 3).sq 3 + Matrix.diagonal fun i : Fin 3 => if i = 1 then t else 0 := by
    ext i j
    fin_cases i <;> fin_cases j <;> simp [Mat.sq, blur, gappy, eye]
  rw [this]
  refine (eye_posDef 3 3).add_posSemidef (PosSemidef.diagonal fun i => ?_)
  show 0 ≤ if i = 1 then t else 0
  split
  · exact h
  · exact le_rfl

theorem faintly_regular {t : ℝ} (h : 0 ≤ t) : Regular (fun _ _ => True) (faintly t) :=
  faint_call (C46_condition (m := 0) (p := 0) flat_solid (attached_iff.2 rfl) (by simp [Rows]) rfl rfl rfl (blur_posDef h))

theorem dead_true : Dead (fun _ _ => True) = fun _ => False := by
  funext p
  simp [Dead, Live]

theorem faint_tells : Tells (Dead (fun _ _ => True)) (fun _ => 2) faint := by
  rw [dead_true]
  refine splits (ops := faint) (P := fun before o => ∀ m, ∀ e ∈ o.written (runOps before {}).gps.length m,
      Sorted (fun _ => False) e ∧ Counts (fun _ => 2) e) ⟨?_, ?_, ?_, trivial⟩
  all_goals
    intro m e he
    first
      | exact (List.not_mem_nil he).elim
      | have he := List.mem_singleton.1 he
        subst he
        first
          | exact ⟨⟨fun _ => ⟨trivial, trivial⟩, fun h => h.elim⟩, trivial⟩
          | exact ⟨⟨fun _ => id, fun h => h.elim⟩, rfl⟩

theorem faintly_tells (t : ℝ) : Tells (Dead (fun _ _ => True)) (fun _ => 2) (faintly t) := by
  rw [dead_true]
  refine splits (ops := faintly t) (P := fun before o => ∀ m, ∀ e ∈ o.written (runOps before {}).gps.length m,
      Sorted (fun _ => False) e ∧ Counts (fun _ => 2) e) ⟨?_, ?_, ?_, trivial⟩
  all_goals
    intro m e he
    first
      | exact (List.not_mem_nil he).elim
      | have he := List.mem_singleton.1 he
        subst he
        first
          | exact ⟨⟨fun _ => ⟨trivial, trivial⟩, fun h => h.elim⟩, trivial⟩
          | exact ⟨⟨fun _ => id, fun h => h.elim⟩, rfl⟩

theorem blur_gappy : ∀ e ∈ [(gappy, [1, 7, 3])], FitsV (fun _ _ => True) e.1 ∧ Filled e.1.2 e.2 ∧
    Attached (runOps [.gp .zero (.prim fun _ _ => 1) none none] {}) 0 e.1.1.p := by
  intro e he
  cases List.mem_singleton.1 he
  refine ⟨⟨_, rfl, by simp [Rows], rfl, rfl, rfl⟩, ?_, attached_iff.2 rfl⟩
  refine .cons (fun b h => ?_) (.cons (fun b h => ?_) (.cons (fun b h => ?_) .nil)) <;> cases h <;> rfl

theorem faint_conditioned : Conditioned faint (faint.take 1) 0 [gappy] 1 :=
  .direct (n := 3) (ord := []) (.plain gappy.1 gappy.2) (.inl rfl) rfl ⟨faint.drop 2, rfl⟩ (by decide : 0 < 1) rfl
    (fun e he => by cases List.mem_singleton.1 he; exact attached_iff.2 rfl)

theorem faintly_conditioned (t : ℝ) : Conditioned (faintly t) ((faintly t).take 1) 0 [blur t (gappy, [1, 7, 3])] 1 :=
  .direct (n := 3) (ord := []) (.plain (blur t (gappy, [1, 7, 3])).1 (blur t (gappy, [1, 7, 3])).2) (.inl rfl) rfl ⟨(faintly t).drop 2, rfl⟩ (by decide : 0 < 1) rfl
    (fun e he => by cases List.mem_singleton.1 he; exact attached_iff.2 rfl)

/-- C61 for a value of 7, which has more and more noise: the posterior goes to that without the value. -/
example {xs ys : List Pt} {v : List ℝ} {v' : ℝ → List ℝ} {A : Mat} {A' : ℝ → Mat} (hv : MeanCall (runOps faint {}) 1 0 (.num xs) v)
    (hv' : ∀ t ≥ 0, MeanCall (runOps (faintly t) {}) 1 0 (.num xs) (v' t)) (hA : KernelCall (runOps faint {}) 1 0 0 (.num xs) (.num ys) A)
    (hA' : ∀ t ≥ 0, KernelCall (runOps (faintly t) {}) 1 0 0 (.num xs) (.num ys) (A' t)) :
    (∀ i < xs.length, Tendsto (fun t => (v' t).getD i 0) atTop (𝓝 (v.getD i 0))) ∧
    ∀ i < xs.length, ∀ j < ys.length, Tendsto (fun t => (A' t).e i j) atTop (𝓝 (A.e i j)) :=
  C61_missing (l := [(gappy, [1, 7, 3])]) (b := faint.take 1) (m1' := fun _ => 1) faint_regular ((eventually_ge_atTop 0).mono fun t h => faintly_regular h) faint_tells
    (.of_forall faintly_tells) List.prefix_rfl (.of_forall fun t => List.prefix_rfl) (by decide : 0 < 1) blur_gappy faint_conditioned (.of_forall faintly_conditioned)
    (attached_iff.2 rfl) (attached_iff.2 rfl) (by simp [Rows]) (by simp [Rows]) hv ((eventually_ge_atTop 0).mono hv') hA ((eventually_ge_atTop 0).mono hA')

/-- And so does the log-density; all of them exist. -/
example : ∃ (r : ℝ) (r' : ℝ → ℝ), Logpdf faint (faint.take 2) 0 [gappy] r ∧ (∀ t ≥ 0, Logpdf (faintly t) ((faintly t).take 2) 0 [blur t (gappy, [1, 7, 3])] (r' t)) ∧
    Tendsto (fun t => r' t + 1 / 2 * Real.log (2 * Real.pi * t)) atTop (𝓝 r) := by
  obtain ⟨r, h1⟩ := logpdf_plain (b := faint.take 2) (ord := []) (m := 0) faint_regular (blur_gappy (gappy, [1, 7, 3]) (by simp)).1 (eye_posDef 3 3) rfl ⟨[], rfl⟩
  have h2 : ∀ t : ℝ, ∃ r, 0 ≤ t → Logpdf (faintly t) ((faintly t).take 2) 0 [blur t (gappy, [1, 7, 3])] r := fun t => by
    by_cases ht : 0 ≤ t
    · obtain ⟨r, h⟩ := logpdf_plain (b := (faintly t).take 2) (ord := []) (m := 0) (faintly_regular ht)
        (blur_fits (t := t) (blur_gappy (gappy, [1, 7, 3]) (by simp)).1 (blur_gappy (gappy, [1, 7, 3]) (by simp)).2.1) (blur_posDef ht) rfl ⟨[], rfl⟩
      exact ⟨r, fun _ => h⟩
    · exact ⟨0, fun h => absurd h ht⟩
  choose r' h2 using h2
  refine ⟨r, r', h1, h2, ?_⟩
  have := C61_logpdf (l := [(gappy, [1, 7, 3])]) (b := faint.take 1) faint_regular ((eventually_ge_atTop 0).mono fun t h => faintly_regular h) faint_tells
    (.of_forall faintly_tells) ⟨_, rfl⟩ (.of_forall fun t => ⟨_, rfl⟩) (by decide : 0 < 1) blur_gappy h1 ((eventually_ge_atTop 0).mono h2)
  simpa [gappy] using this

/-- A value which is missing. -/
noncomputable def absent : Fdd × Vals := (⟨0, .num [[1]], eye 1⟩, [none])

/-- A GP, and the posterior given only a value with much noise. -/
noncomputable def whisper (t : ℝ) : List Op :=
  [.gp .zero (.prim fun _ _ => 1) none none] ++ [.condition 0 (.exact 0 (.num [[1]]) (blur t (absent, [7])).1.noise [7])]

theorem whisper_regular {t : ℝ} (h : 0 ≤ t) : Regular (fun _ _ => True) (whisper t) :=
  (C46_condition (m := 0) (p := 0) flat_solid (attached_iff.2 rfl) (by simp [Rows]) rfl rfl rfl (by
    have : (blur t (absent, [7])).1.noise.sq 1 = (1 + t) • 1 := by
      ext i j
      simp [Mat.sq, blur, absent, eye, Subsingleton.elim i j]
    show ((blur t (absent, [7])).1.noise.sq 1).PosDef
    rw [this]
    exact smul_one_posDef (by linarith))).regular

theorem whisper_tells (t : ℝ) : Tells (Dead (fun _ _ => True)) (fun _ => 2) (whisper t) := by
  rw [dead_true]
  refine splits (ops := whisper t) (P := fun before o => ∀ m, ∀ e ∈ o.written (runOps before {}).gps.length m,
      Sorted (fun _ => False) e ∧ Counts (fun _ => 2) e) ⟨?_, ?_, trivial⟩
  all_goals
    intro m e he
    first
      | exact (List.not_mem_nil he).elim
      | have he := List.mem_singleton.1 he
        subst he
        exact ⟨⟨fun _ => ⟨trivial, trivial⟩, fun h => h.elim⟩, trivial⟩

/-- C61 for only such a value: the posterior goes to the prior, in which variances are one. -/
example {xs ys : List Pt} {v : List ℝ} {v' : ℝ → List ℝ} {A : Mat} {A' : ℝ → Mat} (hv : MeanCall (runOps faint {}) 0 0 (.num xs) v)
    (hv' : ∀ t ≥ 0, MeanCall (runOps (whisper t) {}) 1 0 (.num xs) (v' t)) (hA : KernelCall (runOps faint {}) 0 0 0 (.num xs) (.num ys) A)
    (hA' : ∀ t ≥ 0, KernelCall (runOps (whisper t) {}) 1 0 0 (.num xs) (.num ys) (A' t)) :
    (∀ i < xs.length, Tendsto (fun t => (v' t).getD i 0) atTop (𝓝 (v.getD i 0))) ∧
    ∀ i < xs.length, ∀ j < ys.length, Tendsto (fun t => (A' t).e i j) atTop (𝓝 (A.e i j)) := by
  refine C61_prior (l := [(absent, [7])]) (b := faint.take 1) (b1' := fun t => (whisper t).take 1) (m1' := fun _ => 1) faint_regular
    ((eventually_ge_atTop 0).mono fun t h => whisper_regular h) (.of_forall whisper_tells) ⟨_, rfl⟩ (.of_forall fun t => List.prefix_rfl) (by decide : 0 < 1)
    (fun e he => ?_) (fun e he y hy => ?_) (.of_forall fun t => ?_) (attached_iff.2 rfl) (attached_iff.2 rfl) (by simp [Rows]) (by simp [Rows]) hv
    ((eventually_ge_atTop 0).mono hv') hA ((eventually_ge_atTop 0).mono hA')
  · cases List.mem_singleton.1 he
    exact ⟨⟨_, rfl, by simp [Rows], rfl, rfl, rfl⟩, .cons (fun b h => by cases h) .nil, attached_iff.2 rfl⟩
  · cases List.mem_singleton.1 he
    exact List.mem_singleton.1 hy
  · exact .direct (n := 3) (ord := []) (.plain (blur t (absent, [7])).1 (blur t (absent, [7])).2) (.inl rfl) rfl ⟨[], rfl⟩ (by decide : 0 < 1) rfl
      (fun e he => by cases List.mem_singleton.1 he; exact attached_iff.2 rfl)

end Stheno
