import Verif.Props.Derive
import Verif.Props.Calls

/-!
# Stacks of posteriors: C46

All theorems about regular programs hold for stacks of posteriors. This file shows that regular programs can be
conditioned and extended at any level, and that there are stacks of any height.
-/

namespace Stheno

open Matrix

/-- The conditions on programs that are easy to check, together. -/
structure Solid (G : Dom) (ops : List Op) : Prop where
  tame : Tame G ops
  noisy : Noisy ops
  inducing : Inducing ops

theorem Solid.regular {G : Dom} {ops : List Op} (h : Solid G ops) : Regular G ops :=
  .of_noisy h.tame h.noisy h.inducing

theorem snoc_split {α : Type} {l b c : List α} {o o' : α} (h : l ++ [o] = b ++ o' :: c) :
    (∃ c', l = b ++ o' :: c' ∧ c = c' ++ [o]) ∨ (b = l ∧ o' = o ∧ c = []) := by
  rcases List.eq_nil_or_concat c with rfl | ⟨c', x, rfl⟩
  · right
    obtain ⟨h1, h2⟩ := List.append_inj' h rfl
    cases h2
    exact ⟨h1.symm, rfl, rfl⟩
  · left
    have h : l ++ [o] = (b ++ o' :: c') ++ [x] := by rw [h]; simp
    obtain ⟨h1, h2⟩ := List.append_inj' h rfl
    cases h2
    exact ⟨c', h1, by simp⟩

section
variable {G : Dom} {ops before : List Op} {m : MId} {p : PId}

/-- The kernel of inducing variables returns the same in longer programs. -/
theorem Solid.inducing_append (h : Solid G ops) {later : List Op}
    (hl : ∀ before m pu p o after, ops ++ later = before ++ .condition m (.pseudo pu p o) :: after →
      HasMeasure (runOps before {}) m → (∃ after', ops = before ++ .condition m (.pseudo pu p o) :: after') ∨
        (Observable G ops m pu o.z ∧ HasMeasure (runOps ops {}) m ∧
          ∀ A K, KernelCall (runOps ops {}) m pu pu o.z o.z A → A.add o.noiseZ = some K → (K.sq K.r).PosDef)) :
    Inducing (ops ++ later) := by
  intro before m pu p o after e hm A K hA hK
  rcases hl before m pu p o after e hm with ⟨after', e'⟩ | ⟨ho, hm', hk⟩
  · obtain ⟨-, -, hz, -⟩ := h.tame.obs before m _ after' e' hm
    obtain ⟨-, ⟨A', hA', -⟩, -⟩ := h.regular.observed_calls e' hm hz
    cases (C05_kernel_call hA').unique hA
    exact h.inducing before m pu p o after' e' hm A K hA' hK
  · obtain ⟨-, ⟨A', hA', -⟩, -⟩ := h.regular.observed_calls (List.append_nil ops).symm hm' ho
    cases (C05_kernel_call hA').unique hA
    exact hk A K hA' hK

/-- **C46.** Any number of levels: the programs can be extended by any operation that makes a process from a positive
semi-definite kernel or from processes whose calls return, in any measure. -/
theorem C46_extend (h : Solid G ops) {o : Op} (he : o.Elem) (hc : ∀ m obs, o ≠ .condition m obs)
    (hd : ∀ m, ∀ e ∈ o.written (runOps ops {}).gps.length m, Live G e.1 → e.2.Total G (G e.1))
    (hs : ∀ p d m, o = .diff p d → Attached (runOps ops {}) m p → 
      SmoothOn ((reading ops).F m p) d (G (runOps ops {}).gps.length)) : Solid G (ops ++ [o]) where
  tame := by
    refine ⟨fun o' ho' => ?_, fun before o' after e => ?_, fun before m obs after e => ?_, fun m obs ho => ?_,
      h.tame.smooth_snoc he hs⟩
    · rcases List.mem_append.1 ho' with h1 | h1
      · exact h.tame.elem o' h1
      · rw [List.mem_singleton.1 h1]; exact he
    · rcases snoc_split e with ⟨c', e', _⟩ | ⟨rfl, rfl, _⟩
      · exact h.tame.defs before o' c' e'
      · exact hd
    · rcases snoc_split e with ⟨c', e', _⟩ | ⟨_, e', _⟩
      · exact h.tame.obs before m obs c' e'
      · exact (hc m obs e'.symm).elim
    · rcases List.mem_append.1 ho with h1 | h1
      · exact h.tame.noise m obs h1
      · exact (hc m obs (List.mem_singleton.1 h1).symm).elim
  noisy m obs hm := by
    rcases List.mem_append.1 hm with h1 | h1
    · exact h.noisy m obs h1
    · exact (hc m _ (List.mem_singleton.1 h1).symm).elim
  inducing := by
    refine h.inducing_append fun before m pu p ob after e hm => ?_
    rcases snoc_split e with ⟨c', e', _⟩ | ⟨_, e', _⟩
    · exact .inl ⟨c', e'⟩
    · exact (hc m _ e'.symm).elim

/-- **C46.** In particular, processes can be multiplied, whatever measures they are in. The product can be called at the rows
at which both factors can be called. -/
theorem C46_mul (h : Solid G ops) {q : PId} {ord : List MId} (hG : ∀ k ≤ 4 + 4 * ord.length, ∀ x,
    G ((runOps ops {}).gps.length + k) x ↔ G p x ∧ G q x) : Solid G (ops ++ [.mul p q ord]) := by
  refine C46_extend h (o := .mul p q ord) trivial (fun _ _ h => by cases h) (fun m e he _ => ?_) fun _ _ _ h => by cases h
  have h0 : ∀ x, G (runOps ops {}).gps.length x ↔ G p x ∧ G q x := hG 0 (Nat.zero_le _)
  have hn : ∀ k < 4, ∀ x, G ((runOps ops {}).gps.length + 1 + 4 * ord.idxOf m + k) x ↔ G p x ∧ G q x := fun k hk => by
    have := hG (1 + 4 * ord.idxOf m + k) (by have := List.idxOf_le_length (a := m) (l := ord); omega)
    rwa [← Nat.add_assoc, ← Nat.add_assoc] at this
  simp only [Op.written, List.mem_cons, List.not_mem_nil, or_false] at he
  rcases he with rfl | rfl | rfl | rfl | rfl
  · exact ⟨fun x hx => ((hn 1 (by omega) x).1 hx).2, fun x hx => ((hn 1 (by omega) x).1 hx).1⟩
  · exact ⟨fun x hx => ((hn 2 (by omega) x).1 hx).1, fun x hx => ((hn 2 (by omega) x).1 hx).2⟩
  · exact ⟨fun x hx => (hn 1 (by omega) x).2 ((hn 0 (by omega) x).1 hx), fun x hx => (hn 2 (by omega) x).2 ((hn 0 (by omega) x).1 hx)⟩
  · exact ⟨fun x hx => ((hn 3 (by omega) x).1 hx).1, fun x hx => ((hn 3 (by omega) x).1 hx).2⟩
  · exact ⟨fun x hx => (hn 0 (by omega) x).2 ((h0 x).1 hx), fun x hx => (hn 3 (by omega) x).2 ((h0 x).1 hx)⟩

/-- **C46.** Any measure, also a posterior, can be conditioned, on noisy values of any process in it whose calls
return. -/
theorem C46_condition (h : Solid G ops) {xs : List Pt} {noise : Mat} {y : List ℝ} (hp : Attached (runOps ops {}) m p)
    (hx : Rows (G p) xs) (hr : noise.r = xs.length) (hc : noise.c = xs.length) (hy : y.length = xs.length)
    (hn : (noise.sq xs.length).PosDef) : Solid G (ops ++ [.condition m (.exact p (.num xs) noise y)]) where
  tame := by
    refine ⟨fun o' ho' => ?_, fun before o' after e => ?_, fun before m obs after e => ?_, fun m obs ho => ?_,
      h.tame.smooth_snoc (o := .condition m _) trivial fun _ _ _ h => by cases h⟩
    · rcases List.mem_append.1 ho' with h1 | h1
      · exact h.tame.elem o' h1
      · rw [List.mem_singleton.1 h1]; trivial
    · rcases snoc_split e with ⟨c', e', _⟩ | ⟨rfl, rfl, _⟩
      · exact h.tame.defs before o' c' e'
      · intro m e he; exact (List.not_mem_nil he).elim
    · rcases snoc_split e with ⟨c', e', _⟩ | ⟨rfl, e', _⟩
      · exact h.tame.obs before m obs c' e'
      · cases e'
        exact fun _ => ⟨hr, hc, hy, .inl ⟨⟨xs, rfl, hx⟩, hp⟩⟩
    · rcases List.mem_append.1 ho with h1 | h1
      · exact h.tame.noise m obs h1
      · cases List.mem_singleton.1 h1
        exact hn.posSemidef
  noisy m obs hm := by
    rcases List.mem_append.1 hm with h1 | h1
    · exact h.noisy m obs h1
    · cases List.mem_singleton.1 h1
      exact hn
  inducing := by
    refine h.inducing_append fun before m pu p ob after e hm => ?_
    rcases snoc_split e with ⟨c', e', _⟩ | ⟨_, e', _⟩
    · exact .inl ⟨c', e'⟩
    · cases e'

/-- **C46.** Any measure, also a posterior, can be conditioned on pseudo-observations, with inducing points at which the kernel is
positive definite. -/
theorem C46_condition_sparse (h : Solid G ops) {pu : PId} {μ : Method} {zs xs : List Pt} {noiseZ noise : Mat} {y : List ℝ}
    (hpu : Attached (runOps ops {}) m pu) (hp : Attached (runOps ops {}) m p) (hu : Rows (G pu) zs) (hx : Rows (G p) xs)
    (hzr : noiseZ.r = zs.length) (hzc : noiseZ.c = zs.length) (hr : noise.r = xs.length) (hc : noise.c = xs.length)
    (hy : y.length = xs.length) (hz : (noiseZ.sq zs.length).PosSemidef) (hn : ∀ j < xs.length, 0 < noise.e j j)
    (hk : ∀ A K, KernelCall (runOps ops {}) m pu pu (.num zs) (.num zs) A → A.add noiseZ = some K → (K.sq K.r).PosDef) :
    Solid G (ops ++ [.condition m (.pseudo pu p ⟨μ, .num zs, noiseZ, .num xs, ⟨noise, true⟩, y⟩)]) where
  tame := by
    refine ⟨fun o' ho' => ?_, fun before o' after e => ?_, fun before m obs after e => ?_, fun m obs ho => ?_,
      h.tame.smooth_snoc (o := .condition m _) trivial fun _ _ _ h => by cases h⟩
    · rcases List.mem_append.1 ho' with h1 | h1
      · exact h.tame.elem o' h1
      · rw [List.mem_singleton.1 h1]; trivial
    · rcases snoc_split e with ⟨c', e', _⟩ | ⟨rfl, rfl, _⟩
      · exact h.tame.defs before o' c' e'
      · intro m e he; exact (List.not_mem_nil he).elim
    · rcases snoc_split e with ⟨c', e', _⟩ | ⟨rfl, e', _⟩
      · exact h.tame.obs before m obs c' e'
      · cases e'
        exact fun _ => ⟨rfl, ⟨hzr, hzc, hr, hc, hy⟩, .inl ⟨⟨zs, rfl, hu⟩, hpu⟩, .inl ⟨⟨xs, rfl, hx⟩, hp⟩⟩
    · rcases List.mem_append.1 ho with h1 | h1
      · exact h.tame.noise m obs h1
      · cases List.mem_singleton.1 h1
        exact ⟨hz, fun j hj => (hn j hj).le⟩
  noisy m obs hm := by
    rcases List.mem_append.1 hm with h1 | h1
    · exact h.noisy m obs h1
    · cases List.mem_singleton.1 h1
      exact ⟨hz, hn⟩
  inducing := by
    refine h.inducing_append fun before m pu p ob after e hm => ?_
    rcases snoc_split e with ⟨c', e', _⟩ | ⟨_, e', _⟩
    · exact .inl ⟨c', e'⟩
    · cases e'
      exact .inr ⟨.inl ⟨⟨zs, rfl, hu⟩, hpu⟩, (let ⟨_, hs, _⟩ := hpu; (List.getElem?_eq_some_iff.1 hs).1), hk⟩

/-- Processes stay attached. -/
theorem attached_append (after : List Op) (h : Attached (runOps before {}) m p) :
    Attached (runOps (before ++ after) {}) m p := by
  obtain ⟨b, hb, hib⟩ := (Inv.reach before).attached.1 h
  obtain ⟨b', hb', _, hbp, t, ht⟩ := ops_grow before after hb
  refine (Inv.reach (before ++ after)).attached.2 ⟨b', hb', ?_⟩
  rw [AMeas.ps, mem_knownOf] at hib ⊢
  rw [hbp, ← ht]
  exact hib.imp id fun h => by simp only [List.map_append, List.mem_append]; exact .inr h

/-- Processes are in the posterior. -/
theorem attached_condition {obs : Obs} (h : Attached (runOps before {}) m p) :
    Attached (runOps (before ++ [.condition m obs]) {}) (runOps before {}).ms.length p := by
  obtain ⟨b, hb, hib⟩ := (Inv.reach before).attached.1 h
  refine (Inv.reach (before ++ [.condition m obs])).attached.2 ?_
  have hs : specOps (before ++ [.condition m obs]) {} = (specOps before {}).cond m b obs := by
    rw [specOps_append]; exact condition_spec hb obs
  rw [hs, (Inv.reach before).rel.len]
  refine ⟨⟨some ⟨m, obs⟩, b.ps, [], [], [], none⟩, ?_, ?_⟩
  · show ((specOps before {}).ms ++ [_])[(specOps before {}).ms.length]? = _
    simp
  · rw [AMeas.ps, mem_knownOf]; exact .inl hib

end

/-- A stack of `n` posteriors, in which every level has a new GP and is the posterior given a value of the newest GP
of the level below. -/
noncomputable def tower : ℕ → List Op
  | 0 => [.gp .zero affine none none]
  | n + 1 => tower n ++ [.condition n (.exact n (.num [[n]]) (eye 1) [1])] ++ [.gp .zero affine (some (n + 1)) none]

theorem gp_after {L : AWorld} {mean : MExpr} {k : KExpr} {m : MId} (hm : m < L.ms.length) :
    (Op.gp mean k (some m) none).specAfter L = L.new.push m L.gps.length (.indep mean k) := by
  have hg : aGetMeas m L.new = .ok L.ms[m] L.new := by
    unfold aGetMeas
    show (match L.ms[m]? with | some a => EStateM.Result.ok a L.new | none => .error Err.dangling L.new) = _
    rw [List.getElem?_eq_getElem hm]
  have hr : aResolve (some m) L.new = .ok m L.new := (bind_of_ok hg).trans rfl
  have hd : aDefine m L.gps.length (.indep mean k) L.new = .ok () (L.new.push m L.gps.length (.indep mean k)) := by
    unfold aDefine
    exact if_pos ⟨rfl, rfl⟩
  have hi : aInit mean k (some m) none L = .ok L.gps.length (L.new.push m L.gps.length (.indep mean k)) :=
    (bind_of_ok (show aNewGP L = .ok L.gps.length L.new from rfl)).trans
      ((bind_of_ok hr).trans ((bind_of_ok hd).trans rfl))
  have hs : (Op.gp mean k (some m) none).spec L = .ok () (L.new.push m L.gps.length (.indep mean k)) :=
    (bind_of_ok hi).trans rfl
  unfold Op.specAfter
  rw [hs]

theorem foldl_modify_length (ps : List PId) (k : MId) (g : List (List MId)) :
    (ps.foldl (fun g p => g.modify p (· ++ [k])) g).length = g.length := by
  induction ps generalizing g with
  | nil => rfl
  | cons p ps ih => rw [List.foldl_cons, ih]; simp

theorem tower_state (n : ℕ) : (runOps (tower n) {}).ms.length = n + 1 ∧ (runOps (tower n) {}).gps.length = n + 1 ∧
    ∀ p ≤ n, Attached (runOps (tower n) {}) n p := by
  induction n with
  | zero => exact ⟨rfl, rfl, fun p hp => by cases Nat.le_zero.1 hp; exact attached_iff.2 rfl⟩
  | succ n ih =>
    obtain ⟨h1, h2, h3⟩ := ih
    set ob : Obs := .exact n (.num [[n]]) (eye 1) [1] with hob
    obtain ⟨b, hb, _⟩ := (Inv.reach (tower n)).attached.1 (h3 n le_rfl)
    have hl := (Inv.reach (tower n)).rel.len
    have hg := (Inv.reach (tower n)).rel.gps
    have hs1 : specOps (tower n ++ [.condition n ob]) {} = (specOps (tower n) {}).cond n b ob := by
      rw [specOps_append]; exact condition_spec hb ob
    have hm1 : (specOps (tower n ++ [.condition n ob]) {}).ms.length = n + 2 := by
      rw [hs1]
      show ((specOps (tower n) {}).ms ++ [_]).length = _
      rw [List.length_append, ← hl, h1]; rfl
    have hg1 : (specOps (tower n ++ [.condition n ob]) {}).gps.length = n + 1 := by
      rw [hs1]
      show (b.ps.foldl (fun g p => g.modify p (· ++ [(specOps (tower n) {}).ms.length])) (specOps (tower n) {}).gps).length = _
      rw [← hg, foldl_modify_length, h2]
    have hs2 : specOps (tower (n + 1)) {} = ((specOps (tower n ++ [.condition n ob]) {}).new).push (n + 1) (n + 1)
        (.indep .zero affine) := by
      show specOps (_ ++ [_]) {} = _
      rw [specOps_append]
      refine (gp_after (m := n + 1) (by rw [hm1]; omega)).trans ?_
      rw [hg1]
    refine ⟨?_, ?_, ?_⟩
    · rw [(Inv.reach (tower (n + 1))).rel.len, hs2, push_ms_length]; exact hm1
    · rw [(Inv.reach (tower (n + 1))).rel.gps, hs2, push_gps_length]
      simp only [AWorld.new, List.length_append, hg1]; rfl
    · intro p hp
      rcases Nat.lt_or_ge n p with hlt | hle
      · have hp : p = n + 1 := by omega
        subst hp
        refine (Inv.reach (tower (n + 1))).attached.2 ?_
        rw [hs2, push_ms, if_pos rfl]
        have hx : (specOps (tower n ++ [.condition n ob]) {}).new.ms[n + 1]? =
            some (specOps (tower n ++ [.condition n ob]) {}).ms[n + 1] := List.getElem?_eq_getElem (hm1 ▸ Nat.lt_succ_self _)
        rw [hx]
        exact ⟨_, rfl, by rw [AMeas.ps, mem_knownOf]; exact .inr (by simp)⟩
      · refine attached_append _ ?_
        have := attached_condition (obs := ob) (h3 p hle)
        rwa [h1] at this

theorem tower_solid (n : ℕ) : Solid (off fun _ => False) (tower n) := by
  have ha : (Op.gp .zero affine none none).Elem := ⟨trivial, trivial, affine_psd⟩
  induction n with
  | zero =>
    refine ⟨?_, ?_, .of_exact fun m pu p o ho => by cases List.mem_singleton.1 ho⟩
    · refine ⟨fun o ho => ?_, fun before o after e => ?_, fun before m obs after e => ?_, fun m obs ho => ?_, smooth_of fun p d ho => ?_⟩
      · rw [List.mem_singleton.1 ho]; exact ha
      · rcases snoc_split (l := []) e with ⟨c', e', _⟩ | ⟨_, rfl, _⟩
        · simp at e'
        · intro m e he _
          simp only [Op.written, List.mem_singleton] at he
          subst he
          exact ⟨trivial, trivial⟩
      · rcases snoc_split (l := []) e with ⟨c', e', _⟩ | ⟨_, e', _⟩
        · simp at e'
        · cases e'
      · cases List.mem_singleton.1 ho
      · cases List.mem_singleton.1 ho
    · intro m obs hm
      cases List.mem_singleton.1 hm
  | succ n ih =>
    obtain ⟨_, _, h3⟩ := tower_state n
    refine C46_extend (C46_condition ih (h3 n le_rfl) (rows_off id) rfl rfl rfl (eye_posDef _ _)) ⟨trivial, trivial, affine_psd⟩
      (fun _ _ h => by cases h) ?_ fun _ _ _ h => by cases h
    intro m e he _
    simp only [Op.written, List.mem_singleton] at he
    subst he
    exact ⟨trivial, trivial⟩

/-- On top of any stack: the square of the first GP, in all measures, and a further posterior, given two values of the square. -/
noncomputable def spire (n : ℕ) : List Op :=
  tower n ++ [.mul 0 0 (List.range (n + 1))] ++ [.condition n (.exact (n + 1) (.num [[0], [1]]) (eye 2) [1, 2])]

theorem spire_solid (n : ℕ) (h : Attached (runOps (tower n ++ [.mul 0 0 (List.range (n + 1))]) {}) n (n + 1)) : Solid (off fun _ => False) (spire n) :=
  C46_condition (C46_mul (tower_solid n) fun _ _ _ => ⟨fun h => ⟨h, h⟩, fun h => h.1⟩) h (rows_off id) rfl rfl rfl (eye_posDef _ _)

/-- Calls of the square in the posterior given values of the square. -/
example (xs ys : List Pt) : ∃ v A, MeanCall (runOps (spire 1) {}) 2 2 (.num xs) v ∧ v.length = xs.length ∧
    KernelCall (runOps (spire 1) {}) 2 2 0 (.num xs) (.num ys) A ∧ A.r = xs.length ∧ A.c = ys.length := by
  have h := (spire_solid 1 (attached_iff.2 (by decide +kernel))).regular
  have h2 : Attached (runOps (spire 1) {}) 2 2 := attached_iff.2 (by decide +kernel)
  have h0 : Attached (runOps (spire 1) {}) 2 0 := attached_iff.2 (by decide +kernel)
  obtain ⟨v, hv, lv⟩ := h.mean (xs := xs) h2 (rows_off id)
  obtain ⟨A, hA, rA, cA⟩ := h.kernel (xs := xs) (ys := ys) h2 h0 (rows_off id) (rows_off id)
  exact ⟨v, A, hv, lv, hA, rA, cA⟩

/-- **C46.** There are stacks of posteriors of every height, with new processes at every level, to which the theorems
about regular programs apply: in every measure of the stack, the mean and kernel of every process of that level or
below return what a reading of the program says. -/
theorem C46_stacks (n : ℕ) : (runOps (tower n) {}).ms.length = n + 1 ∧ ∀ m ≤ n, ∀ p ≤ m, ∀ q ≤ m, ∀ xs ys,
    ∃ vs ws A, (reading (tower n)).F m p (.num xs) = some vs ∧ (reading (tower n)).F m q (.num ys) = some ws ∧
      MeanCall (runOps (tower n) {}) m p (.num xs) (vs.map ((reading (tower n)).S m).E) ∧
      KernelCall (runOps (tower n) {}) m p q (.num xs) (.num ys) A ∧ A.r = xs.length ∧ A.c = ys.length ∧
      ∀ i < xs.length, ∀ j < ys.length, A.e i j = ((reading (tower n)).S m).C (vs.getD i 0) (ws.getD j 0) := by
  have hr := (tower_solid n).regular
  have hsub : ∀ m ≤ n, ∃ t, tower n = tower m ++ t := by
    intro m hm
    induction n, hm using Nat.le_induction with
    | base => exact ⟨[], by simp⟩
    | succ k hk ih =>
      obtain ⟨t, ht⟩ := ih (tower_solid k).regular
      exact ⟨t ++ [_] ++ [_], by show tower k ++ _ ++ _ = _; rw [ht, ← List.append_assoc, ← List.append_assoc]⟩
  have hat : ∀ m ≤ n, ∀ p ≤ m, Attached (runOps (tower n) {}) m p := by
    intro m hm p hp
    obtain ⟨t, ht⟩ := hsub m hm
    rw [ht]
    exact attached_append t ((tower_state m).2.2 p hp)
  refine ⟨(tower_state n).1, fun m hm p hp q hq xs ys => ?_⟩
  obtain ⟨vs, hF, lF⟩ := hr.value (xs := xs) (hat m hm p hp) (rows_off id)
  obtain ⟨ws, hG, lG⟩ := hr.value (xs := ys) (hat m hm q hq) (rows_off id)
  obtain ⟨v, hv, _⟩ := hr.mean (xs := xs) (hat m hm p hp) (rows_off id)
  obtain ⟨A, hA, rA, cA⟩ := hr.kernel (xs := xs) (ys := ys) (hat m hm p hp) (hat m hm q hq) (rows_off id) (rows_off id)
  have h := hr.kernel_eq (hat m hm p hp) (hat m hm q hq) (rows_off id) (rows_off id) hA hF hG
  exact ⟨vs, ws, A, hF, hG, hr.mean_eq (hat m hm p hp) (rows_off id) hv hF ▸ hv, hA, rA, cA, fun i hi j hj => h.e i (hi.trans_eq (rA.symm.trans h.r)) j (hj.trans_eq (cA.symm.trans h.c))⟩

end Stheno
