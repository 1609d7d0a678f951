import Verif.Apart
import Verif.Props.Restate

/-!
# C60: independent parts of a model stay independent, and observations of one part tell nothing about the others
-/

namespace Stheno

open Matrix

/-- What is observed in measure `m` is in parts: the observations are of one process of some part, or jointly of several processes each of some part; inducing points are of
one process of some part. -/
def ObsParted (G : Dom) (κ : PId → Option ℕ) (ops : List Op) (m : MId) (obs : Obs) : Prop :=
  (∃ p x N y, obs = .exact p x N y ∧ (κ p).isSome ∧ Attached (runOps ops {}) m p) ∨
  (∃ l, ObsOf ops m l obs ∧ ∀ e ∈ l, Fits G e ∧ (κ e.1.p).isSome ∧ Attached (runOps ops {}) m e.1.p) ∨
  ∃ pu p o, obs = .pseudo pu p o ∧ (κ pu).isSome ∧ Attached (runOps ops {}) m pu

/-- The processes of a program are in parts, or in none: a process in a part is made only from processes of that part, and everything observed is in parts. -/
structure Parted (G : Dom) (κ : PId → Option ℕ) (ops : List Op) : Prop where
  defs : ∀ before o after, ops = before ++ o :: after → ∀ m, ∀ e ∈ o.written (runOps before {}).gps.length m, InPart κ e
  obs : ∀ before m obs after, ops = before ++ .condition m obs :: after → HasMeasure (runOps before {}) m → ObsParted G κ ops m obs

section
variable {V : Type} [AddCommGroup V] [Module ℝ V] {I : Interp V} {G : Dom} {D : PId → ℕ} {κ : PId → Option ℕ} {ops b b' : List Op} {m m1 m2 : MId} {p q q' : PId}
  {xs ys : List Pt} {o o' : Obs} {c c' : ℕ} {k k2 k2' : List (Fdd × List ℝ)} {l l' l1 l2 : List (Fdd × Vals)} {r r1 r2 : ℝ}

/-- The parts of the values in several observations. -/
theorem Interp.Blocks.classes {zss : List (List V)} (hb : I.Blocks m k zss) (hk : ∀ e ∈ k, (κ e.1.p).isSome) :
    ∃ cz : ℕ → ℕ, (∀ i < zss.flatten.length, ∃ e ∈ k, ∃ zs, κ e.1.p = some (cz i) ∧ I.F m e.1.p e.1.x = some zs ∧ zss.flatten.getD i 0 ∈ zs) ∧
      ∀ i < zss.flatten.length, ∀ j < zss.flatten.length, cz i ≠ cz j → (Mat.blockDiag (k.map (·.1.noise))).e i j = 0 := by
  induction hb with
  | nil => exact ⟨fun _ => 0, fun i hi => by simp at hi, fun i hi => by simp at hi⟩
  | @cons e zs k zss h hb ih =>
    obtain ⟨cz, h1, h2⟩ := ih fun e he => hk e (by simp [he])
    obtain ⟨c0, e0⟩ := Option.isSome_iff_exists.1 (hk e (by simp))
    refine ⟨fun i => if i < zs.length then c0 else cz (i - zs.length), fun i hi => ?_, fun i hi j hj hij => ?_⟩
    · rw [List.flatten_cons, List.length_append] at hi
      by_cases hi' : i < zs.length
      · refine ⟨e, by simp, zs, by simpa [hi'] using e0, h.1, ?_⟩
        rw [List.flatten_cons, List.getD_append _ _ _ _ hi', List.getD_eq_getElem _ _ hi']
        exact List.getElem_mem hi'
      · obtain ⟨e', he', zs', h3, h4, h5⟩ := h1 (i - zs.length) (by omega)
        refine ⟨e', by simp [he'], zs', by simpa [hi'] using h3, h4, ?_⟩
        rw [List.flatten_cons, List.getD_append_right _ _ _ _ (by omega)]
        exact h5
    · rw [List.flatten_cons, List.length_append] at hi hj
      simp only [List.map_cons, Mat.blockDiag, Mat.dsum, h.2.1, h.2.2.1]
      dsimp only at hij
      by_cases hi' : i < zs.length <;> by_cases hj' : j < zs.length <;> simp only [hi', hj', if_true, if_false] at hij ⊢
      · exact (hij rfl).elim
      · exact h2 _ (by omega) _ (by omega) hij

/-- Programs whose processes are in parts. -/
theorem Parted.apart (hp : Parted G κ ops) (h : Regular G ops) : (reading ops).Apart κ ops := by
  refine ⟨hp.defs, fun before m obs after e hm => ?_⟩
  rcases hp.obs before m obs after e hm with ⟨p, x, N, y, rfl, hκ, ha⟩ | ⟨l, ho, hl⟩ | ⟨pu, p, o, rfl, hκ, ha⟩
  · obtain ⟨c, hc⟩ := Option.isSome_iff_exists.1 hκ
    exact fun zs hz => ⟨fun _ => c, fun i => ⟨p, x, zs, ha, hc, hz, List.get_mem zs i⟩, fun i j h => (h rfl).elim⟩
  · obtain ⟨zss, hb⟩ := h.blocks (m := m) (l := l) (fun e he => (hl e he).1) fun e he => (hl e he).2.2
    obtain ⟨p, x, N, y, rfl, hF, -, -, hr, hc, hN⟩ := ho.observes h.reads hb
    obtain ⟨cz, h1, h2⟩ := hb.classes fun e he => (hl e he).2.1
    intro zs hz
    cases hF.symm.trans hz
    refine ⟨fun i => cz i, fun i => ?_, fun i j hij => ?_⟩
    · obtain ⟨e, he, zs, h3, h4, h5⟩ := h1 i i.2
      rw [List.getD_eq_getElem _ _ i.2] at h5
      exact ⟨e.1.p, e.1.x, zs, (hl e he).2.2, h3, h4, h5⟩
    · rw [hN i i.2 j j.2]
      exact h2 i i.2 j j.2 hij
  · exact ⟨hκ, ha⟩

/-- **C60.** In regular programs whose processes are in parts: kernels between processes of different parts return zeros, in every measure, also in posteriors. -/
theorem C60_independent (h : Regular G ops) (hp : Parted G κ ops) (hq : Attached (runOps ops {}) m q) (hq' : Attached (runOps ops {}) m q') (ec : κ q = some c)
    (ec' : κ q' = some c') (hne : c ≠ c') (cq : Rows (G q) xs) (cq' : Rows (G q') ys) :
    ∃ A, KernelCall (runOps ops {}) m q q' (.num xs) (.num ys) A ∧ A.Eqv ⟨xs.length, ys.length, fun _ _ => 0⟩ := by
  obtain ⟨A, hA, _⟩ := h.kernel hq hq' cq cq'
  obtain ⟨vs, hv, lv⟩ := h.value hq cq
  obtain ⟨ws, hw, lw⟩ := h.value hq' cq'
  refine ⟨A, hA, (h.kernel_eq hq hq' cq cq' hA hv hw).trans ⟨lv, lw, fun i hi j hj => ?_⟩⟩
  have ho := h.reads.parts_orth h.firm (hp.apart h) hq hq' ec ec' hne
  have hi' : i < vs.length := lv.symm ▸ hi
  have hj' : j < ws.length := lw.symm ▸ hj
  show ((reading ops).S m).C (vs.getD i 0) (ws.getD j 0) = 0
  rw [List.getD_eq_getElem _ _ hi', List.getD_eq_getElem _ _ hj']
  exact ho _ _ _ _ hv hw _ (List.getElem_mem hi') _ (List.getElem_mem hj')

theorem Interp.Blocks.values {zss : List (List V)} (hb : I.Blocks m k zss) : ∀ z ∈ zss.flatten, ∃ e ∈ k, ∃ zs, I.F m e.1.p e.1.x = some zs ∧ z ∈ zs := by
  induction hb with
  | nil => simp
  | @cons e zs k zss h hb ih =>
    intro z hz
    rw [List.flatten_cons, List.mem_append] at hz
    rcases hz with hz | hz
    · exact ⟨e, by simp, zs, h.1, hz⟩
    · obtain ⟨e', he', h'⟩ := ih z hz
      exact ⟨e', by simp [he'], h'⟩

theorem Interp.Blocks.split {k' : List (Fdd × List ℝ)} {zss : List (List V)} (h : I.Blocks m (k ++ k') zss) :
    ∃ z z', I.Blocks m k z ∧ I.Blocks m k' z' ∧ zss = z ++ z' := by
  induction k generalizing zss with
  | nil => exact ⟨[], zss, .nil, h, rfl⟩
  | cons e k ih =>
    cases h with
    | cons h1 h2 =>
      obtain ⟨z, z', h3, h4, rfl⟩ := ih h2
      exact ⟨_ :: z, z', .cons h1 h3, h4, rfl⟩

/-- An update with observations of a part, and with the same and observations of other parts. -/
theorem Interp.Reads.update_part {S1 : SO V} (h : I.Reads ops) (hf : I.Firm ops) (ha : I.Apart κ ops) {zk zl : List (List V)} (hk : I.Blocks m k zk)
    {l : List (Fdd × List ℝ)} (hl : I.Blocks m l zl) (hu : IsUpdate (I.S m) S1 zl.flatten (Mat.blockDiag (l.map (·.1.noise))) (l.flatMap (·.2)))
    (hpd : (noisyGram (I.S m) zl.flatten (Mat.blockDiag (l.map (·.1.noise)))).PosDef) (hp : l.Perm (k2 ++ k)) (ck : ∀ e ∈ k, κ e.1.p = some c)
    (ck2 : ∀ e ∈ k2, ∃ c', κ e.1.p = some c' ∧ c' ≠ c) (hat : ∀ e ∈ l, Attached (runOps ops {}) m e.1.p) (hq : Attached (runOps ops {}) m q) (cq : κ q = some c)
    {x : Input} {vs : List V} (hv : I.F m q x = some vs) {u : V} (huv : u ∈ vs) :
    (∀ v, S1.C u v = ((I.S m).observe zk.flatten (Mat.blockDiag (k.map (·.1.noise))) (k.flatMap (·.2))).C u v) ∧
      S1.E u = ((I.S m).observe zk.flatten (Mat.blockDiag (k.map (·.1.noise))) (k.flatMap (·.2))).E u := by
  obtain ⟨zj, hj, rj⟩ := hl.reorder hp
  obtain ⟨z2, zk', h2, hk', rfl⟩ := hj.split
  cases blocks_unique hk' hk
  have sk := hk.sizes
  have s2 := h2.sizes
  have uj := SO.observe_isUpdate (S := I.S m) (y := (k2 ++ k).flatMap (·.2)) hj.sizes.1 hj.sizes.2.1
  obtain ⟨c1, e1⟩ := hu.reorder uj rj hpd
  have pj := rj.posDef (S := I.S m) hpd
  have e1 := e1 hl.sizes.2.2 hj.sizes.2.2
  generalize (I.S m).observe (z2 ++ zk).flatten _ _ = Sj at uj c1 e1
  have hd : Mat.blockDiag ((k2 ++ k).map (·.1.noise)) = (Mat.blockDiag (k2.map (·.1.noise))).dsum (Mat.blockDiag (k.map (·.1.noise))) := by
    rw [List.map_append, blockDiag_append]
  rw [List.flatten_append, hd] at pj
  rw [List.flatten_append, hd, List.flatMap_append] at uj
  have uk := SO.observe_isUpdate (S := I.S m) (y := k.flatMap (·.2)) sk.1 sk.2.1
  have hatj : ∀ e ∈ k2 ++ k, Attached (runOps ops {}) m e.1.p := fun e he => hat e (hp.mem_iff.2 he)
  have orth : ∀ z ∈ z2.flatten, ∀ (q : PId) x vs, Attached (runOps ops {}) m q → κ q = some c → I.F m q x = some vs → ∀ v ∈ vs, (I.S m).C z v = 0 := by
    intro z hz q x vs hq cq hv v hvv
    obtain ⟨e, he, zs, hF, hm⟩ := h2.values z hz
    obtain ⟨c', ec', hne⟩ := ck2 e he
    exact h.parts_orth hf ha (hatj e (by simp [he])) hq ec' cq hne _ _ _ _ hF hv _ hm _ hvv
  have p1 : (noisyGram (I.S m) zk.flatten (Mat.blockDiag (k.map (·.1.noise)))).PosDef := by
    obtain ⟨zs, hs, rs⟩ := hj.reorder (List.perm_append_comm (l₁ := k2) (l₂ := k))
    have hs' : I.Blocks m (k ++ k2) (zk ++ z2) := List.rel_append hk h2
    cases blocks_unique hs hs'
    have := rs.posDef (S := I.S m) (by rw [List.flatten_append, hd]; exact pj)
    rw [List.flatten_append, List.map_append, blockDiag_append] at this
    exact noisyGram_left sk.1 sk.2.1 this
  obtain ⟨c2, e2⟩ := uk.irrelevant (u := u) uj s2.1 s2.2.1 pj p1 (fun z hz w hw => by
      obtain ⟨e, he, zs, hF, hm⟩ := hk.values w hw
      exact orth z hz _ _ _ (hatj e (by simp [he])) (ck e he) hF w hm)
    fun z hz => orth z hz q x vs hq cq hv u huv
  exact ⟨fun v => (c1 u v).trans (c2 v), (e1 u).trans (e2 sk.2.2 s2.2.2)⟩

/-- Two measures with the same expectations and covariances of the values of a process have means and kernels of it that return the same. -/
theorem Regular.same_on (h : Regular G ops) (a1 : Attached (runOps ops {}) m1 q) (a2 : Attached (runOps ops {}) m2 q) (a1' : Attached (runOps ops {}) m1 q')
    (a2' : Attached (runOps ops {}) m2 q') (e : (reading ops).F m1 q = (reading ops).F m2 q) (e' : (reading ops).F m1 q' = (reading ops).F m2 q')
    (hS : ∀ vs, (reading ops).F m1 q (.num xs) = some vs → ∀ u ∈ vs, (∀ v, ((reading ops).S m1).C u v = ((reading ops).S m2).C u v) ∧
      ((reading ops).S m1).E u = ((reading ops).S m2).E u) (cq : Rows (G q) xs) (cq' : Rows (G q') ys) :
    (∀ v, MeanCall (runOps ops {}) m1 q (.num xs) v ↔ MeanCall (runOps ops {}) m2 q (.num xs) v) ∧
    ∃ A A', KernelCall (runOps ops {}) m1 q q' (.num xs) (.num ys) A ∧ KernelCall (runOps ops {}) m2 q q' (.num xs) (.num ys) A' ∧ A.Eqv A' := by
  obtain ⟨vs, hv, _⟩ := h.value a1 cq
  obtain ⟨ws, hw, _⟩ := h.value a1' cq'
  have hS := hS vs hv
  have hv' := hv
  rw [e] at hv'
  have hw' := hw
  rw [e'] at hw'
  constructor
  · obtain ⟨v1, c1, _⟩ := h.mean a1 cq
    obtain ⟨v2, c2, _⟩ := h.mean a2 cq
    have hh : v1 = v2 := by
      rw [h.mean_eq a1 cq c1 hv, h.mean_eq a2 cq c2 hv']
      exact List.map_congr_left fun u hu => (hS u hu).2
    intro v
    constructor
    · intro hc
      rw [hc.unique c1, hh]; exact c2
    · intro hc
      rw [hc.unique c2, ← hh]; exact c1
  · obtain ⟨A, hA, _⟩ := h.kernel a1 a1' cq cq'
    obtain ⟨A', hA', _⟩ := h.kernel a2 a2' cq cq'
    refine ⟨A, A', hA, hA', ?_⟩
    have k1 := h.kernel_eq a1 a1' cq cq' hA hv hw
    have k2 := h.kernel_eq a2 a2' cq cq' hA' hv' hw'
    refine (k1.trans (?_ : Mat.Eqv _ (covMat ((reading ops).S m2) vs ws))).trans k2.symm
    refine ⟨rfl, rfl, fun i hi j hj => ?_⟩
    have hi' : i < vs.length := hi
    show ((reading ops).S m1).C (vs.getD i 0) (ws.getD j 0) = ((reading ops).S m2).C (vs.getD i 0) (ws.getD j 0)
    rw [List.getD_eq_getElem _ _ hi']
    exact (hS _ (List.getElem_mem hi')).1 _

theorem fits_available (hl : ∀ e ∈ l, FitsV G e) : ∀ e ∈ l.map available, Fits G e := by
  intro e he
  obtain ⟨e', he', rfl⟩ := List.mem_map.1 he
  exact (hl e' he').fits

/-- **C60.** In regular programs whose processes are in parts: observations of other parts are irrelevant. Measures conditioned on the same observations `k` of a part and on
whatever observations of other parts, in all notations, with missing data and in any order, have means and kernels of the processes of the part that return the same. -/
theorem C60_irrelevant (h : Regular G ops) (hκ : Parted G κ ops) (ht : Tells (Dead G) D ops) (c1 : Conditioned ops b m l m1) (c2 : Conditioned ops b' m l' m2)
    (hl : ∀ e ∈ l, FitsV G e) (hl' : ∀ e ∈ l', FitsV G e) (hp : (l.map available).Perm (k2 ++ k)) (hp' : (l'.map available).Perm (k2' ++ k))
    (ck : ∀ e ∈ k, κ e.1.p = some c) (ck2 : ∀ e ∈ k2, ∃ c', κ e.1.p = some c' ∧ c' ≠ c) (ck2' : ∀ e ∈ k2', ∃ c', κ e.1.p = some c' ∧ c' ≠ c)
    (ec : κ q = some c) (hq : Attached (runOps b {}) m q) (kq : Attached (runOps b' {}) m q)
    (hq' : Attached (runOps b {}) m q') (kq' : Attached (runOps b' {}) m q') (cq : Rows (G q) xs) (cq' : Rows (G q') ys) :
    (∀ v, MeanCall (runOps ops {}) m1 q (.num xs) v ↔ MeanCall (runOps ops {}) m2 q (.num xs) v) ∧
    ∃ A A', KernelCall (runOps ops {}) m1 q q' (.num xs) (.num ys) A ∧ KernelCall (runOps ops {}) m2 q q' (.num xs) (.num ys) A' ∧ A.Eqv A' := by
  obtain ⟨b1, o1, p1, g1, ho1, ha1⟩ := c1.gives ht hl
  obtain ⟨b2, o2, p2, g2, ho2, ha2⟩ := c2.gives ht hl'
  have at1 : ∀ e ∈ l.map available, Attached (runOps ops {}) m e.1.p := fun e he => by
    obtain ⟨e', he', rfl⟩ := List.mem_map.1 he
    exact g1.attached_prior (ha1 e' he')
  have at2 : ∀ e ∈ l'.map available, Attached (runOps ops {}) m e.1.p := fun e he => by
    obtain ⟨e', he', rfl⟩ := List.mem_map.1 he
    exact g2.attached_prior (ha2 e' he')
  obtain ⟨z1, hb1⟩ := h.blocks (fits_available hl) at1
  obtain ⟨z2, hb2⟩ := h.blocks (fits_available hl') at2
  obtain ⟨zk, hbk⟩ := h.blocks (m := m) (l := k) (fun e he => fits_available hl e (hp.mem_iff.2 (by simp [he]))) fun e he => at1 e (hp.mem_iff.2 (by simp [he]))
  obtain ⟨u1, q1⟩ := g1.blocks_any h.reads h.firm ho1 hb1 (fits_available hl)
  obtain ⟨u2, q2⟩ := g2.blocks_any h.reads h.firm ho2 hb2 (fits_available hl')
  have hap := hκ.apart h
  have f1 := fun q hq => (g1.law h.reads).1 q (attached_pre (m := m) hq p1)
  have f2 := fun q hq => (g2.law h.reads).1 q (attached_pre (m := m) hq p2)
  refine h.same_on (g1.attached (attached_pre hq p1)) (g2.attached (attached_pre kq p2)) (g1.attached (attached_pre hq' p1)) (g2.attached (attached_pre kq' p2))
    ((f1 q hq).trans (f2 q kq).symm) ((f1 q' hq').trans (f2 q' kq').symm) (fun vs hv u hu => ?_) cq cq'
  rw [f1 q hq] at hv
  have aq := g1.attached_prior (attached_pre hq p1)
  obtain ⟨x1, y1⟩ := h.reads.update_part h.firm hap hbk hb1 u1 q1 hp ck ck2 at1 aq ec hv hu
  obtain ⟨x2, y2⟩ := h.reads.update_part h.firm hap hbk hb2 u2 q2 hp' ck ck2' at2 aq ec hv hu
  exact ⟨fun v => (x1 v).trans (x2 v).symm, y1.trans y2.symm⟩

/-- **C60.** In regular programs whose processes are in parts: conditioning on observations of other parts does not change the means and kernels of the processes of a part. -/
theorem C60_unchanged (h : Regular G ops) (hκ : Parted G κ ops) (ht : Tells (Dead G) D ops) (c1 : Conditioned ops b m l m1)
    (hl : ∀ e ∈ l, FitsV G e) (ck : ∀ e ∈ l, ∃ c', κ e.1.p = some c' ∧ c' ≠ c) (ec : κ q = some c) (hq : Attached (runOps b {}) m q)
    (hq' : Attached (runOps b {}) m q') (cq : Rows (G q) xs) (cq' : Rows (G q') ys) :
    (∀ v, MeanCall (runOps ops {}) m1 q (.num xs) v ↔ MeanCall (runOps ops {}) m q (.num xs) v) ∧
    ∃ A A', KernelCall (runOps ops {}) m1 q q' (.num xs) (.num ys) A ∧ KernelCall (runOps ops {}) m q q' (.num xs) (.num ys) A' ∧ A.Eqv A' := by
  obtain ⟨b1, o1, p1, g1, ho1, ha1⟩ := c1.gives ht hl
  have at1 : ∀ e ∈ l.map available, Attached (runOps ops {}) m e.1.p := fun e he => by
    obtain ⟨e', he', rfl⟩ := List.mem_map.1 he
    exact g1.attached_prior (ha1 e' he')
  obtain ⟨z1, hb1⟩ := h.blocks (fits_available hl) at1
  obtain ⟨u1, q1⟩ := g1.blocks_any h.reads h.firm ho1 hb1 (fits_available hl)
  have f1 := fun q hq => (g1.law h.reads).1 q (attached_pre (m := m) hq p1)
  refine h.same_on (g1.attached (attached_pre hq p1)) (g1.attached_prior (attached_pre hq p1)) (g1.attached (attached_pre hq' p1))
    (g1.attached_prior (attached_pre hq' p1)) (f1 q hq) (f1 q' hq') (fun vs hv u hu => ?_) cq cq'
  rw [f1 q hq] at hv
  have aq := g1.attached_prior (attached_pre hq p1)
  obtain ⟨x1, y1⟩ := h.reads.update_part (k := []) (k2 := l.map available) h.firm (hκ.apart h) .nil hb1 u1 q1 (by simp) (by simp) (fun e he => by
    obtain ⟨e', he', rfl⟩ := List.mem_map.1 he
    exact ck e' he') at1 aq ec hv hu
  have u0 := SO.observe_isUpdate (S := (reading ops).S m) (zs := []) (noise := Mat.blockDiag []) (y := []) rfl rfl
  have p0 : (noisyGram ((reading ops).S m) [] (Mat.blockDiag [])).PosDef := by
    have : noisyGram ((reading ops).S m) [] (Mat.blockDiag []) = 1 := by
      ext i
      exact i.elim0
    rw [this]
    exact Matrix.PosDef.one
  obtain ⟨x0, y0⟩ := u0.unrelated (u := u) p0 (by simp)
  exact ⟨fun v => (x1 v).trans (x0 v), y1.trans (y0 rfl)⟩

/-- **C60.** In regular programs whose processes are in parts: the log-density of data of different parts is the sum of the log-densities, in all notations, with missing data
and in any order. -/
theorem C60_logpdf (h : Regular G ops) (hκ : Parted G κ ops) (ht : Tells (Dead G) D ops) (c0 : Logpdf ops b m l r) {b1 b2 : List Op} (c1 : Logpdf ops b1 m l1 r1)
    (c2 : Logpdf ops b2 m l2 r2) (hl : ∀ e ∈ l, FitsV G e) (hp : (l.map available).Perm (l1.map available ++ l2.map available))
    (h1 : ∀ e ∈ l1, FitsV G e) (h2 : ∀ e ∈ l2, FitsV G e) (a1 : ∀ e ∈ l1, Attached (runOps ops {}) m e.1.p) (a2 : ∀ e ∈ l2, Attached (runOps ops {}) m e.1.p)
    (hne : ∀ e ∈ l1, ∀ e' ∈ l2, ∃ c c', κ e.1.p = some c ∧ κ e'.1.p = some c' ∧ c ≠ c') : r = r1 + r2 := by
  obtain ⟨z1, hb1⟩ := h.blocks (m := m) (fits_available h1) fun e he => by
    obtain ⟨e', he', rfl⟩ := List.mem_map.1 he
    exact a1 e' he'
  obtain ⟨z2, hb2⟩ := h.blocks (m := m) (fits_available h2) fun e he => by
    obtain ⟨e', he', rfl⟩ := List.mem_map.1 he
    exact a2 e' he'
  have hj : (reading ops).Blocks m (l1.map available ++ l2.map available) (z1 ++ z2) := List.rel_append hb1 hb2
  obtain ⟨z, hb, -⟩ := hj.reorder hp.symm
  obtain ⟨zj, hb', hr⟩ := hb.reorder hp
  cases blocks_unique hb' hj
  obtain ⟨v0, p0⟩ := c0.value h.reads ht hl hb
  obtain ⟨v1, -⟩ := c1.value h.reads ht h1 hb1
  obtain ⟨v2, -⟩ := c2.value h.reads ht h2 hb2
  have pj := hr.posDef p0
  rw [v0, v1, v2, ← hr.logpdf]
  rw [List.map_append, blockDiag_append, List.flatten_append] at pj ⊢
  rw [List.flatMap_append]
  refine IsUpdate.logpdf_apart hb1.sizes.1 hb1.sizes.2.1 hb1.sizes.2.2 pj fun z hz w hw => ?_
  obtain ⟨e, he, zs, hF, hm⟩ := hb1.values z hz
  obtain ⟨e', he', zs', hF', hm'⟩ := hb2.values w hw
  obtain ⟨f, hf, rfl⟩ := List.mem_map.1 he
  obtain ⟨f', hf', rfl⟩ := List.mem_map.1 he'
  obtain ⟨c, c', ec, ec', hcc⟩ := hne f hf f' hf'
  exact h.reads.parts_orth h.firm (hκ.apart h) (a1 f hf) (a2 f' hf') ec ec' hcc _ _ _ _ hF hF' _ hm _ hm'

end

/-! ## Examples -/

/-- The two GPs of `notes` are two parts. -/
def notesPart (p : PId) : Option ℕ := if p = 0 then some 0 else if p = 1 then some 1 else none

theorem notes_parted : Parted (off notesC) notesPart notes := by
  have fit : ∀ {p : PId} {xs : List Pt} {N : Mat} {y : List ℝ}, ¬ notesC p → N.r = xs.length → N.c = xs.length → y.length = xs.length →
      Fits (off notesC) (⟨p, .num xs, N⟩, y) := fun h h1 h2 h3 => ⟨_, rfl, rows_off h, h1, h2, h3⟩
  constructor
  · refine splits (ops := notes) (P := fun before o => ∀ m, ∀ e ∈ o.written (runOps before {}).gps.length m, InPart notesPart e)
      ⟨?_, ?_, ?_, ?_, ?_, ?_, ?_, ?_, ?_, trivial⟩
    all_goals
      intro m e he
      first
        | exact (List.not_mem_nil he).elim
        | have he := List.mem_singleton.1 he
          subst he
          first
            | exact fun c hc => ⟨fun q hq => (List.not_mem_nil hq).elim, fun _ _ _ h => by cases h⟩
            | exact fun c hc => by cases hc
  · intro before m obs after e hm
    refine splits (ops := notes) (P := fun before o => ∀ m obs, o = .condition m obs → ObsParted (off notesC) notesPart notes m obs)
      ⟨?_, ?_, ?_, ?_, ?_, ?_, ?_, ?_, ?_, trivial⟩ before _ after e m obs rfl
    all_goals
      intro m obs e
      first
        | (exfalso; cases e; done)
        | cases e
    · exact .inl ⟨_, _, _, _, rfl, rfl, attached_iff.2 rfl⟩
    · refine .inr (.inl ⟨[(⟨0, .num [[0], [2]], rows (eye 3) [0, 2]⟩, [1, 3])], ?_, fun e he => ?_⟩)
      · exact .joint (b := notes.take 2) (qs := [0]) (ord := [0]) (c := 2) ⟨⟨notes.drop 3, rfl⟩, rfl, 0, attached_iff.2 rfl⟩ (attached_iff.2 rfl) (by simp)
      · cases List.mem_singleton.1 he
        exact ⟨fit (by decide) rfl rfl rfl, rfl, attached_iff.2 rfl⟩
    · refine .inr (.inl ⟨[(⟨0, .num [[0], [2]], rows (eye 3) [0, 2]⟩, [1, 3]), (⟨1, .num [[5]], eye 1⟩, [4])], ?_, fun e he => ?_⟩)
      · refine .eqv (.joint (b := notes.take 3) (qs := [0, 1]) (ord := [0]) (c := 3) ⟨⟨notes.drop 4, rfl⟩, rfl, 0, attached_iff.2 rfl⟩ (attached_iff.2 rfl) (by simp))
          ⟨rfl, rfl, fun i hi j hj => ?_⟩
        have hi : i < 3 := hi
        have hj : j < 3 := hj
        interval_cases i <;> interval_cases j <;> rfl
      · simp only [List.mem_cons, List.not_mem_nil, or_false] at he
        rcases he with rfl | rfl
        · exact ⟨fit (by decide) rfl rfl rfl, rfl, attached_iff.2 rfl⟩
        · exact ⟨fit (by decide) rfl rfl rfl, rfl, attached_iff.2 rfl⟩
    · refine .inr (.inl ⟨[(⟨1, .num [[5]], eye 1⟩, [4]), (⟨0, .num [[0], [2]], rows (eye 3) [0, 2]⟩, [1, 3])], ?_, fun e he => ?_⟩)
      · exact .joint (b := notes.take 4) (qs := [1, 0]) (ord := [0]) (c := 4) ⟨⟨notes.drop 5, rfl⟩, rfl, 0, attached_iff.2 rfl⟩ (attached_iff.2 rfl) (by simp)
      · simp only [List.mem_cons, List.not_mem_nil, or_false] at he
        rcases he with rfl | rfl
        · exact ⟨fit (by decide) rfl rfl rfl, rfl, attached_iff.2 rfl⟩
        · exact ⟨fit (by decide) rfl rfl rfl, rfl, attached_iff.2 rfl⟩

/-- C60 for `notes`: the two GPs are independent in the posterior given both. -/
example (xs ys : List Pt) : ∃ A, KernelCall (runOps notes {}) 3 0 1 (.num xs) (.num ys) A ∧ A.Eqv ⟨xs.length, ys.length, fun _ _ => 0⟩ :=
  C60_independent notes_regular notes_parted (attached_iff.2 rfl) (attached_iff.2 rfl) rfl rfl (by decide) (rows_off (by decide)) (rows_off (by decide))

/-- C60 for `notes`: the posterior given values of both GPs has the mean and kernel of the first GP of the posterior given values of the first. -/
example (xs ys : List Pt) :
    (∀ v, MeanCall (runOps notes {}) 1 0 (.num xs) v ↔ MeanCall (runOps notes {}) 3 0 (.num xs) v) ∧
    ∃ A A', KernelCall (runOps notes {}) 1 0 0 (.num xs) (.num ys) A ∧ KernelCall (runOps notes {}) 3 0 0 (.num xs) (.num ys) A' ∧ A.Eqv A' :=
  C60_irrelevant (k := [available gappy]) (k2 := []) (k2' := [available single]) notes_regular notes_parted notes_tells notes_one notes_three
    (by simpa using notes_fits.1) (by simpa using ⟨notes_fits.1, notes_fits.2.2⟩) (.refl _) (.swap _ _ _)
    (fun e he => by cases List.mem_singleton.1 he; rfl) (fun e he => (List.not_mem_nil he).elim)
    (fun e he => by cases List.mem_singleton.1 he; exact ⟨1, rfl, by decide⟩) rfl
    (attached_iff.2 rfl) (attached_iff.2 rfl) (attached_iff.2 rfl) (attached_iff.2 rfl) (rows_off (by decide)) (rows_off (by decide))

/-- C60 for `notes`: values of the first GP do not change the mean and kernel of the second. -/
example (xs ys : List Pt) :
    (∀ v, MeanCall (runOps notes {}) 1 1 (.num xs) v ↔ MeanCall (runOps notes {}) 0 1 (.num xs) v) ∧
    ∃ A A', KernelCall (runOps notes {}) 1 1 1 (.num xs) (.num ys) A ∧ KernelCall (runOps notes {}) 0 1 1 (.num xs) (.num ys) A' ∧ A.Eqv A' :=
  C60_unchanged notes_regular notes_parted notes_tells notes_one (by simpa using notes_fits.1)
    (fun e he => by cases List.mem_singleton.1 he; exact ⟨0, rfl, by decide⟩) rfl (attached_iff.2 rfl) (attached_iff.2 rfl)
    (rows_off (by decide)) (rows_off (by decide))

/-- Two GPs, and log-densities of values of the first, of a value of the second, and of both. -/
noncomputable def ledger : List Op :=
  [.gp .zero affine none none, .gp .zero affine (some 0) none, .call 0 0, .call 0 1, .cross [0, 1] [0], .call 0 4]

/-- The parts of `ledger`. -/
def ledgerPart (p : PId) : Option ℕ := if p = 0 ∨ p = 2 then some 0 else if p = 1 ∨ p = 3 then some 1 else none

theorem ledger_regular : Regular (off diaryC) ledger := by
  refine .of_noisy_off ⟨?_, ?_, ?_, fun m obs h => by simp [ledger] at h, smooth_of (by simp [ledger])⟩ (fun m obs h => by simp [ledger] at h)
    (.of_exact (by simp [ledger]))
  · have hs := affine_psd
    intro o ho
    simp only [ledger, List.mem_cons, List.not_mem_nil, or_false] at ho
    rcases ho with rfl | rfl | rfl | rfl | rfl | rfl
    all_goals first
      | exact ⟨trivial, trivial, hs⟩
      | trivial
      | (intro h; cases h)
  · refine splits (ops := ledger) (P := fun before o => ∀ m, ∀ e ∈ o.written (runOps before {}).gps.length m,
      ¬ diaryC e.1 → e.2.TotalOff diaryC) ⟨?_, ?_, ?_, ?_, ?_, ?_, trivial⟩
    all_goals
      intro m e he
      first
        | exact (List.not_mem_nil he).elim
        | have he := List.mem_singleton.1 he
          subst he
          first
            | exact fun h => (h (.inl rfl)).elim
            | exact fun h => (h (.inr rfl)).elim
            | exact fun _ => ⟨trivial, trivial⟩
            | exact fun _ => (by decide : ¬ diaryC _)
  · intro before m obs after e hm
    refine splits (ops := ledger) (P := fun before o => ∀ m obs, o = .condition m obs → ObsFitsOff diaryC before m obs) ⟨?_, ?_, ?_, ?_, ?_, ?_, trivial⟩
      before _ after e m obs rfl
    all_goals
      intro m obs e
      cases e

theorem ledger_tells : Tells (Dead (off diaryC)) (fun _ => 2) ledger := by
  rw [dead_off]
  refine splits (ops := ledger) (P := fun before o => ∀ m, ∀ e ∈ o.written (runOps before {}).gps.length m,
      Sorted diaryC e ∧ Counts (fun _ => 2) e) ⟨?_, ?_, ?_, ?_, ?_, ?_, trivial⟩
  all_goals
    intro m e he
    first
      | exact (List.not_mem_nil he).elim
      | have he := List.mem_singleton.1 he
        subst he
        first
          | exact ⟨⟨fun _ => ⟨trivial, trivial⟩, fun h => (by rcases h with h | h <;> cases h)⟩, trivial⟩
          | exact ⟨⟨fun _ => (by decide : ¬ diaryC _), fun h => (by rcases h with h | h <;> cases h)⟩, rfl⟩
          | exact ⟨⟨fun h => (h (.inl rfl)).elim, fun _ => ⟨by simp, by decide⟩⟩, rfl⟩
          | exact ⟨⟨fun h => (h (.inr rfl)).elim, fun _ => (by decide : diaryC _)⟩, rfl⟩

theorem ledger_parted : Parted (off diaryC) ledgerPart ledger := by
  constructor
  · refine splits (ops := ledger) (P := fun before o => ∀ m, ∀ e ∈ o.written (runOps before {}).gps.length m, InPart ledgerPart e)
      ⟨?_, ?_, ?_, ?_, ?_, ?_, trivial⟩
    all_goals
      intro m e he
      first
        | exact (List.not_mem_nil he).elim
        | have he := List.mem_singleton.1 he
          subst he
          first
            | exact fun c hc => ⟨fun q hq => (List.not_mem_nil hq).elim, fun _ _ _ h => by cases h⟩
            | (intro c hc; exfalso; cases hc; done)
            | exact fun c hc => ⟨fun q hq => by cases List.mem_singleton.1 hq; cases hc; rfl, fun _ _ _ h => by cases h⟩
  · intro before m obs after e hm
    have : Op.condition m obs ∈ ledger := by rw [e]; simp
    simp [ledger] at this

/-- C60 for `ledger`. All of the log-densities exist. -/
example : ∃ r1 r2 r, Logpdf ledger (ledger.take 2) 0 [gappy] r1 ∧ Logpdf ledger (ledger.take 3) 0 [single] r2 ∧
    Logpdf ledger (ledger.take 4) 0 [gappy, single] r ∧ r = r1 + r2 := by
  obtain ⟨r1, h1⟩ := logpdf_plain (b := ledger.take 2) (ord := []) (m := 0) ledger_regular diary_fits.1 (eye_posDef 3 3) rfl ⟨ledger.drop 3, rfl⟩
  obtain ⟨r2, h2⟩ := logpdf_plain (b := ledger.take 3) (ord := []) (m := 0) ledger_regular diary_fits.2 (eye_posDef 1 1) rfl ⟨ledger.drop 4, rfl⟩
  obtain ⟨r, h⟩ := logpdf_pairs (b := ledger.take 4) (ord := [0]) (m := 0) (l := [gappy, single]) ledger_regular (by simp)
    (by simpa using diary_fits) (by
      intro e he
      simp only [List.mem_cons, List.not_mem_nil, or_false] at he
      rcases he with rfl | rfl
      · exact eye_posDef 3 3
      · exact eye_posDef 1 1) rfl ⟨[], rfl⟩
  refine ⟨r1, r2, r, h1, h2, h, ?_⟩
  exact C60_logpdf ledger_regular ledger_parted ledger_tells h h1 h2 (by simpa using diary_fits) (.refl _) (by simpa using diary_fits.1)
    (by simpa using diary_fits.2) (fun e he => by cases List.mem_singleton.1 he; exact attached_iff.2 rfl)
    (fun e he => by cases List.mem_singleton.1 he; exact attached_iff.2 rfl) fun e he e' he' => by
      cases List.mem_singleton.1 he
      cases List.mem_singleton.1 he'
      exact ⟨0, 1, rfl, rfl, by decide⟩

end Stheno
