import Verif.Follow
import Verif.Props.Restate
import Verif.Props.Apart

/-!
# Models are their equations

What a program returns for a process only depends on the equations of the process: on how it, and what it is made from, was defined, and on the observations that were
conditioned on. The order in which processes are made and measures conditioned, the numbers that processes and measures get, whether a process was made before or
after conditioning, and processes and measures that are not used do not matter. (`Mirrors σ τ ops' ops`: every equation of `ops'` is, with other numbers, one of `ops`.)
-/

namespace Stheno

section

variable {ops ops' b b' : List Op} {G G' : Dom} {σ : PId → PId} {τ : MId → MId} {m : MId} {p q : PId} {xs ys : List Pt}
  {l l' : List (Fdd × Vals)} {D D' : PId → ℕ}

/-- The reading of the one program that the other gives. -/
theorem Regular.pull (h : Regular G ops) (h' : Regular G' ops') (hf : Mirrors σ τ ops' ops) (hu : Unmultiplied ops) (hu' : Unmultiplied ops') :
    ((reading ops).pull σ τ).Reads ops' := h.reads.pull h.firm hf h.elem hu h'.elem hu'

/-- **C63.** A program whose equations are those of another returns the same means. -/
theorem C63_mean (h : Regular G ops) (h' : Regular G' ops') (hf : Mirrors σ τ ops' ops) (hu : Unmultiplied ops) (hu' : Unmultiplied ops')
    (hp : Attached (runOps ops' {}) m p) (cp : Rows (G (σ p)) xs) (cp' : Rows (G' p) xs) :
    ∃ v, MeanCall (runOps ops' {}) m p (.num xs) v ∧ MeanCall (runOps ops {}) (τ m) (σ p) (.num xs) v := by
  obtain ⟨vs, hv, lv⟩ := h.value (hf.attached m p hp) cp
  obtain ⟨v, c, l⟩ := h.mean (hf.attached m p hp) cp
  obtain ⟨v', c', l'⟩ := h'.mean hp cp'
  have e := ((h.pull h' hf hu hu').mean (vs := vs) c' hv).2 (l'.trans lv.symm)
  refine ⟨v', c', ?_⟩
  rw [e]
  show MeanCall _ _ _ _ (vs.map ((reading ops).S (τ m)).E)
  rw [← h.mean_eq (hf.attached m p hp) cp c hv]
  exact c

/-- **C63.** A program whose equations are those of another returns the same covariances. -/
theorem C63_kernel (h : Regular G ops) (h' : Regular G' ops') (hf : Mirrors σ τ ops' ops) (hu : Unmultiplied ops) (hu' : Unmultiplied ops')
    (hp : Attached (runOps ops' {}) m p) (hq : Attached (runOps ops' {}) m q) (cp : Rows (G (σ p)) xs) (cp' : Rows (G' p) xs) (cq : Rows (G (σ q)) ys)
    (cq' : Rows (G' q) ys) :
    ∃ A A', KernelCall (runOps ops' {}) m p q (.num xs) (.num ys) A' ∧ KernelCall (runOps ops {}) (τ m) (σ p) (σ q) (.num xs) (.num ys) A ∧ A'.Eqv A := by
  obtain ⟨vs, hv, lv⟩ := h.value (hf.attached m p hp) cp
  obtain ⟨ws, hw, lw⟩ := h.value (hf.attached m q hq) cq
  obtain ⟨A, c, -⟩ := h.kernel (hf.attached m p hp) (hf.attached m q hq) cp cq
  obtain ⟨A', c', l'⟩ := h'.kernel hp hq cp' cq'
  have e := (h.pull h' hf hu hu').kernel (vs := vs) (ws := ws) c' hv hw
  have e' := h.kernel_eq (hf.attached m p hp) (hf.attached m q hq) cp cq c hv hw
  exact ⟨A, A', c', c, .trans ⟨l'.1.trans lv.symm, l'.2.trans lw.symm, e.e (l'.1.trans lv.symm) (l'.2.trans lw.symm)⟩ e'.symm⟩

/-- **C63.** And the same when kernels are evaluated elementwise. -/
theorem C63_elwise (h : Regular G ops) (h' : Regular G' ops') (hf : Mirrors σ τ ops' ops) (hu : Unmultiplied ops) (hu' : Unmultiplied ops')
    (hp : Attached (runOps ops' {}) m p) (hq : Attached (runOps ops' {}) m q) (cp : Rows (G (σ p)) xs) (cp' : Rows (G' p) xs) (cq : Rows (G (σ q)) ys)
    (cq' : Rows (G' q) ys) (hxy : xs.length = ys.length) :
    ∃ u, ElwiseCall (runOps ops' {}) m p q (.num xs) (.num ys) u ∧ ElwiseCall (runOps ops {}) (τ m) (σ p) (σ q) (.num xs) (.num ys) u := by
  obtain ⟨vs, hv, lv⟩ := h.value (hf.attached m p hp) cp
  obtain ⟨ws, hw, lw⟩ := h.value (hf.attached m q hq) cq
  obtain ⟨u, c, l⟩ := h.elwise (hf.attached m p hp) (hf.attached m q hq) cp cq hxy
  obtain ⟨u', c', l'⟩ := h'.elwise hp hq cp' cq' hxy
  have e := ((h.pull h' hf hu hu').elwise (vs := vs) (ws := ws) c' hv hw).e (l'.trans lv.symm) (l'.trans (hxy.trans lw.symm))
  have e' := (h.reads.elwise c hv hw).e (l.trans lv.symm) (l.trans (hxy.trans lw.symm))
  refine ⟨u', c', ?_⟩
  have : u' = u := List.ext_getElem? fun i => by
    by_cases hi : i < vs.length
    · exact (e i hi).trans (e' i hi).symm
    · rw [List.getElem?_eq_none (by omega), List.getElem?_eq_none (by omega)]
  rw [this]
  exact c

/-- An observation, with other numbers for the processes. -/
def renamed (σ : PId → PId) (e : Fdd × Vals) : Fdd × Vals := (⟨σ e.1.p, e.1.x, e.1.noise⟩, e.2)

/-- **C63.** And the same log-densities, in all notations, with missing data and in any order. -/
theorem C63_logpdf (h : Regular G ops) (h' : Regular G' ops') (hf : Mirrors σ τ ops' ops) (hu : Unmultiplied ops) (hu' : Unmultiplied ops')
    (ht : Tells (Dead G) D ops) (ht' : Tells (Dead G') D' ops') {r r' : ℝ} (c' : Logpdf ops' b' m l' r') (c : Logpdf ops b (τ m) l r)
    (hl' : ∀ e ∈ l', FitsV G' e) (hl : ∀ e ∈ l, FitsV G e) (ha : ∀ e ∈ l', Attached (runOps ops' {}) m e.1.p)
    (hp : (l.map available).Perm ((l'.map (renamed σ)).map available)) : r' = r := by
  obtain ⟨zss, hb⟩ := h.blocks (m := τ m) (l := (l'.map (renamed σ)).map available) (fun e he => fits_available hl e (hp.mem_iff.2 he)) fun e he => by
    simp only [List.map_map, List.mem_map, Function.comp] at he
    obtain ⟨e', he', rfl⟩ := he
    exact hf.attached m _ (ha e' he')
  have hb' : ((reading ops).pull σ τ).Blocks m (l'.map available) zss := by
    clear hp ha c'
    induction l' generalizing zss with
    | nil => cases hb; exact .nil
    | cons e l' ih =>
      cases hb with
      | cons hd tl =>
        refine .cons ⟨?_, hd.2⟩ (ih (fun e he => hl' e (by simp [he])) _ tl)
        obtain ⟨xs, ex, -⟩ := hl' e (by simp)
        have h1 := hd.1
        simp only [available, renamed, ex] at h1 ⊢
        exact h1
  obtain ⟨z, hz, hr⟩ := hb.reorder hp.symm
  rw [(c'.value (h.pull h' hf hu hu') ht' hl' hb').1, (c.value h.reads ht hl hz).1, hr.logpdf]
  have e1 : ((l'.map (renamed σ)).map available).map (·.1.noise) = (l'.map available).map (·.1.noise) := by
    rw [List.map_map, List.map_map, List.map_map]; rfl
  have e2 : ((l'.map (renamed σ)).map available).flatMap (·.2) = (l'.map available).flatMap (·.2) := by
    rw [List.map_map, List.flatMap_map, List.flatMap_map]; rfl
  rw [e1, e2]
  rfl

/-- The process `q` is, or is made from, the process `r`. -/
inductive MadeFrom (ops : List Op) (r : PId) : PId → Prop
  | self : MadeFrom ops r r
  | step {before : List Op} {o : Op} {q p : PId} {d : ProcDef} (hm : Makes ops before o q d) (hp : p ∈ d.refs) (h : MadeFrom ops r p) : MadeFrom ops r q

/-- **C63.** A GP is, in its measure, uncorrelated with everything that is not made from it, however and whenever it is made. -/
theorem C63_fresh (h : Regular G ops) (hu : Unmultiplied ops) {before : List Op} {o : Op} {r : PId} {mean : MExpr} {k : KExpr}
    (hm : Makes ops before o r (.indep mean k)) (hr : Attached (runOps (before ++ [o]) {}) m r) (hq : Attached (runOps ops {}) m q)
    (hn : ¬MadeFrom ops r q) (cr : Rows (G r) xs) (cq : Rows (G q) ys) :
    ∃ A, KernelCall (runOps ops {}) m r q (.num xs) (.num ys) A ∧ A.Eqv ⟨xs.length, ys.length, fun _ _ => 0⟩ := by
  have ho := h.reads.fresh h.elem hu hm hr (κ := fun q => ¬MadeFrom ops r q) (fun hk => hk .self)
    (fun before o q d hm hk p hp hp' => hk (.step hm hp hp')) q hq hn
  have hr' : Attached (runOps ops {}) m r := by
    obtain ⟨after, e⟩ := hm.split
    exact attached_pre hr ⟨after, by rw [e]; simp⟩
  obtain ⟨vs, hv, lv⟩ := h.value hr' cr
  obtain ⟨ws, hw, lw⟩ := h.value hq cq
  obtain ⟨A, c, -⟩ := h.kernel hr' hq cr cq
  refine ⟨A, c, (h.kernel_eq hr' hq cr cq c hv hw).trans ⟨lv, lw, fun i hi j hj => ?_⟩⟩
  have hi' : i < vs.length := by rw [lv]; exact hi
  have hj' : j < ws.length := by rw [lw]; exact hj
  show ((reading ops).S m).C (vs.getD i 0) (ws.getD j 0) = 0
  rw [List.getD_eq_getElem _ _ hi', List.getD_eq_getElem _ _ hj']
  exact ho _ _ _ _ hv hw _ (List.getElem_mem hi') _ (List.getElem_mem hj')

end

/-! ## An example -/

/-- Two GPs `f` and `g`, their sum, the posterior given observations of the sum, then `2 * f`, and what a
log-density of the sum is computed with. -/
noncomputable def recipe : List Op :=
  [.gp .zero affine none none, .gp (.fn (.const 1)) (.prim fun _ _ => 1) (some 0) none, .add 0 1 [0],
    .condition 0 (.exact 2 (.num [[0], [1]]) (eye 2) [1, 2]), .scale 0 2, .call 0 2]

/-- The same in another order: first `g`, then `f`, then `2 * f`, another GP that is not used, a posterior that is not used, the sum, and the posterior given observations of it. -/
noncomputable def reordered : List Op :=
  [.gp (.fn (.const 1)) (.prim fun _ _ => 1) none none, .gp .zero affine (some 0) none, .scale 1 2, .gp .zero affine (some 0) none,
    .condition 0 (.exact 3 (.num [[0], [1]]) (eye 2) [3, 4]), .add 1 0 [0, 1], .condition 0 (.exact 4 (.num [[0], [1]]) (eye 2) [1, 2]), .call 0 4]

/-- The numbers of the processes of `recipe` in `reordered`. -/
def reorderedId (p : PId) : PId := if p = 0 then 1 else if p = 1 then 0 else if p = 2 then 4 else if p = 3 then 2 else p + 1

/-- The numbers of the measures of `recipe` in `reordered`. -/
def reorderedMeasure (m : MId) : MId := 2 * m

theorem recipe_solid : Solid (fun _ _ => True) recipe := by
  have h1 : Solid (fun _ _ => True) (recipe.take 1) := C46_extend .nil (o := .gp .zero affine none none) ⟨trivial, trivial, affine_psd⟩
    (fun _ _ h => by cases h) (fun m e he _ => by
      simp only [Op.written, List.mem_singleton] at he
      subst he
      exact ⟨trivial, trivial⟩) fun _ _ _ h => by cases h
  have h2 : Solid (fun _ _ => True) (recipe.take 2) := C46_extend h1 (o := .gp (.fn (.const 1)) (.prim fun _ _ => 1) (some 0) none)
    ⟨trivial, trivial, psd_const zero_le_one⟩ (fun _ _ h => by cases h) (fun m e he _ => by
      simp only [Op.written, List.mem_singleton] at he
      subst he
      exact ⟨trivial, trivial⟩) fun _ _ _ h => by cases h
  have h3 : Solid (fun _ _ => True) (recipe.take 3) := C46_extend h2 (o := .add 0 1 [0]) trivial (fun _ _ h => by cases h) (fun m e he _ => by
    simp only [Op.written, List.mem_singleton] at he
    subst he
    exact ⟨fun x _ => trivial, fun x _ => trivial⟩) fun _ _ _ h => by cases h
  have h4 : Solid (fun _ _ => True) (recipe.take 4) := C46_condition (m := 0) (p := 2) h3 (attached_iff.2 rfl) (by simp [Rows]) rfl rfl rfl (eye_posDef 2 2)
  have h5 : Solid (fun _ _ => True) (recipe.take 5) := C46_extend h4 (o := .scale 0 2) trivial (fun _ _ h => by cases h) (fun m e he _ => by
    simp only [Op.written, List.mem_singleton] at he
    subst he
    exact fun x _ => trivial) fun _ _ _ h => by cases h
  exact C46_extend h5 (o := .call 0 2) trivial (fun _ _ h => by cases h) (fun m e he _ => by
    simp only [Op.written, List.mem_singleton] at he
    subst he
    exact fun x _ => trivial) fun _ _ _ h => by cases h

theorem reordered_solid : Solid (fun _ _ => True) reordered := by
  have h1 : Solid (fun _ _ => True) (reordered.take 1) := C46_extend .nil (o := .gp (.fn (.const 1)) (.prim fun _ _ => 1) none none)
    ⟨trivial, trivial, psd_const zero_le_one⟩ (fun _ _ h => by cases h) (fun m e he _ => by
      simp only [Op.written, List.mem_singleton] at he
      subst he
      exact ⟨trivial, trivial⟩) fun _ _ _ h => by cases h
  have h2 : Solid (fun _ _ => True) (reordered.take 2) := C46_extend h1 (o := .gp .zero affine (some 0) none) ⟨trivial, trivial, affine_psd⟩
    (fun _ _ h => by cases h) (fun m e he _ => by
      simp only [Op.written, List.mem_singleton] at he
      subst he
      exact ⟨trivial, trivial⟩) fun _ _ _ h => by cases h
  have h3 : Solid (fun _ _ => True) (reordered.take 3) := C46_extend h2 (o := .scale 1 2) trivial (fun _ _ h => by cases h) (fun m e he _ => by
    simp only [Op.written, List.mem_singleton] at he
    subst he
    exact fun x _ => trivial) fun _ _ _ h => by cases h
  have h4 : Solid (fun _ _ => True) (reordered.take 4) := C46_extend h3 (o := .gp .zero affine (some 0) none) ⟨trivial, trivial, affine_psd⟩
    (fun _ _ h => by cases h) (fun m e he _ => by
      simp only [Op.written, List.mem_singleton] at he
      subst he
      exact ⟨trivial, trivial⟩) fun _ _ _ h => by cases h
  have h5 : Solid (fun _ _ => True) (reordered.take 5) := C46_condition (m := 0) (p := 3) h4 (attached_iff.2 rfl) (by simp [Rows]) rfl rfl rfl (eye_posDef 2 2)
  have h6 : Solid (fun _ _ => True) (reordered.take 6) := C46_extend h5 (o := .add 1 0 [0, 1]) trivial (fun _ _ h => by cases h) (fun m e he _ => by
    simp only [Op.written, List.mem_singleton] at he
    subst he
    exact ⟨fun x _ => trivial, fun x _ => trivial⟩) fun _ _ _ h => by cases h
  have h7 : Solid (fun _ _ => True) (reordered.take 7) := C46_condition (m := 0) (p := 4) h6 (attached_iff.2 rfl) (by simp [Rows]) rfl rfl rfl (eye_posDef 2 2)
  exact C46_extend h7 (o := .call 0 4) trivial (fun _ _ h => by cases h) (fun m e he _ => by
    simp only [Op.written, List.mem_singleton] at he
    subst he
    exact fun x _ => trivial) fun _ _ _ h => by cases h

theorem recipe_follows : Mirrors reorderedId reorderedMeasure recipe reordered where
  inj := by
    intro a b h
    simp only [reorderedId] at h
    split_ifs at h <;> omega
  attached := by
    intro m p h
    have hp : p < 5 := attached_lt h
    have hm : m < 2 := by
      obtain ⟨s, hs, -⟩ := h
      exact (List.getElem?_eq_some_iff.1 hs).1
    interval_cases m <;> interval_cases p <;> first
      | exact attached_iff.2 (by decide +kernel)
      | exact absurd (attached_iff.1 h) (by decide +kernel)
  makes := by
    intro before' o' r d h
    obtain ⟨after, e⟩ := h.split
    refine splits (ops := recipe) (P := fun before' o' => ∀ r d, r = (runOps before' {}).gps.length → o'.makes = some d →
      ∃ before o, Makes reordered before o (reorderedId r) (d.rename reorderedId) ∧
        ((∃ a k, d = .indep a k) → ∀ m : MId, Attached (runOps (before' ++ [o']) {}) m r →
          Attached (runOps (before ++ [o]) {}) (reorderedMeasure m) (reorderedId r))) ⟨?_, ?_, ?_, ?_, ?_, ?_, trivial⟩ before' o' after e r d h.id h.makes
    · rintro r d rfl ⟨⟩
      refine ⟨reordered.take 1, .gp .zero affine (some 0) none, ⟨⟨⟨_, rfl⟩, rfl, 0, attached_iff.2 (by decide +kernel)⟩, rfl⟩, fun _ m hm => ?_⟩
      have : m < 1 := by
        obtain ⟨s, hs, -⟩ := hm
        exact (List.getElem?_eq_some_iff.1 hs).1
      interval_cases m
      exact attached_iff.2 (by decide +kernel)
    · rintro r d rfl ⟨⟩
      refine ⟨[], .gp (.fn (.const 1)) (.prim fun _ _ => 1) none none, ⟨⟨⟨_, rfl⟩, rfl, 0, attached_iff.2 (by decide +kernel)⟩, rfl⟩, fun _ m hm => ?_⟩
      have : m < 1 := by
        obtain ⟨s, hs, -⟩ := hm
        exact (List.getElem?_eq_some_iff.1 hs).1
      interval_cases m
      exact attached_iff.2 (by decide +kernel)
    · rintro r d rfl ⟨⟩
      exact ⟨reordered.take 5, .add 1 0 [0, 1], ⟨⟨⟨_, rfl⟩, rfl, 0, attached_iff.2 (by decide +kernel)⟩, rfl⟩, by simp⟩
    · rintro r d rfl ⟨⟩
    · rintro r d rfl ⟨⟩
      exact ⟨reordered.take 2, .scale 1 2, ⟨⟨⟨_, rfl⟩, rfl, 0, attached_iff.2 (by decide +kernel)⟩, rfl⟩, by simp⟩
    · rintro r d rfl ⟨⟩
      exact ⟨reordered.take 7, .call 0 4, ⟨⟨⟨_, rfl⟩, rfl, 0, attached_iff.2 (by decide +kernel)⟩, rfl⟩, by simp⟩
  gives := by
    intro before' m obs m1 h
    obtain ⟨after, e⟩ := h.split
    refine splits (ops := recipe) (P := fun before' o' => ∀ m obs m1, o' = .condition m obs → m1 = (runOps before' {}).ms.length →
      ∃ before, Gives reordered before (reorderedMeasure m) (obs.rename reorderedId) (reorderedMeasure m1)) ⟨?_, ?_, ?_, ?_, ?_, ?_, trivial⟩
      before' _ after e m obs m1 rfl h.id
    all_goals
      rintro m obs m1 h rfl
      cases h
    exact ⟨reordered.take 6, ⟨_, rfl⟩, by show 0 < (runOps (reordered.take 6) {}).ms.length; decide +kernel, rfl⟩

theorem recipe_unmultiplied : Unmultiplied recipe := by
  intro p q ord h
  simp [recipe] at h

theorem reordered_unmultiplied : Unmultiplied reordered := by
  intro p q ord h
  simp [reordered] at h

/-- `2 * f`, made after conditioning and before conditioning, has the same posterior mean, and the same posterior covariances with `g`. -/
example : (∃ v, MeanCall (runOps recipe {}) 1 3 (.num [[2], [3]]) v ∧ MeanCall (runOps reordered {}) 2 2 (.num [[2], [3]]) v) ∧
    ∃ A A', KernelCall (runOps recipe {}) 1 3 1 (.num [[2], [3]]) (.num [[4]]) A' ∧ KernelCall (runOps reordered {}) 2 2 0 (.num [[2], [3]]) (.num [[4]]) A ∧
      A'.Eqv A :=
  ⟨C63_mean reordered_solid.regular recipe_solid.regular recipe_follows reordered_unmultiplied recipe_unmultiplied (m := 1) (p := 3)
    (attached_iff.2 (by decide +kernel)) (by simp [Rows]) (by simp [Rows]),
  C63_kernel reordered_solid.regular recipe_solid.regular recipe_follows reordered_unmultiplied recipe_unmultiplied (m := 1) (p := 3) (q := 1)
    (attached_iff.2 (by decide +kernel)) (attached_iff.2 (by decide +kernel)) (by simp [Rows]) (by simp [Rows]) (by simp [Rows]) (by simp [Rows])⟩

example : ∃ u, ElwiseCall (runOps recipe {}) 1 3 1 (.num [[2], [3]]) (.num [[4], [5]]) u ∧ ElwiseCall (runOps reordered {}) 2 2 0 (.num [[2], [3]]) (.num [[4], [5]]) u :=
  C63_elwise reordered_solid.regular recipe_solid.regular recipe_follows reordered_unmultiplied recipe_unmultiplied (m := 1) (p := 3) (q := 1)
    (attached_iff.2 (by decide +kernel)) (attached_iff.2 (by decide +kernel)) (by simp [Rows]) (by simp [Rows]) (by simp [Rows]) (by simp [Rows]) rfl

/-- The unused GP of `reordered` is uncorrelated with the sum, which is made after it. -/
example : ∃ A, KernelCall (runOps reordered {}) 0 3 4 (.num [[2], [3]]) (.num [[4]]) A ∧ A.Eqv ⟨2, 1, fun _ _ => 0⟩ := by
  refine C63_fresh reordered_solid.regular reordered_unmultiplied (before := reordered.take 3) (o := .gp .zero affine (some 0) none) (mean := .zero) (k := affine)
    ⟨⟨⟨_, rfl⟩, rfl, 0, attached_iff.2 (by decide +kernel)⟩, rfl⟩ (attached_iff.2 (by decide +kernel)) (attached_iff.2 (by decide +kernel)) ?_ (by simp [Rows]) (by simp [Rows])
  have key : ∀ q, MadeFrom reordered 3 q → q = 3 := by
    intro q h
    induction h with
    | self => rfl
    | step hm hp _ ih =>
      subst ih
      obtain ⟨after, e⟩ := hm.split
      refine (splits (ops := reordered) (P := fun _ o => ∀ d, o.makes = some d → 3 ∉ d.refs) ⟨?_, ?_, ?_, ?_, ?_, ?_, ?_, ?_, trivial⟩ _ _ after e _ hm.makes hp).elim
      all_goals
        rintro d ⟨⟩
        try simp [ProcDef.refs]
  exact fun h => absurd (key 4 h) (by decide)

/-- The observations of the sum, in `recipe` and in `reordered`. -/
noncomputable def pinch : Fdd × Vals := (⟨2, .num [[0], [1]], eye 2⟩, [some 1, some 2])

theorem recipe_tells : Tells (Dead (fun _ _ => True)) (fun _ => 2) recipe := by
  have hd : Dead (fun _ _ => True) = fun _ => False := by
    funext p
    simp [Dead, Live]
  rw [hd]
  refine splits (ops := recipe) (P := fun before o => ∀ m, ∀ e ∈ o.written (runOps before {}).gps.length m,
      Sorted (fun _ => False) e ∧ Counts (fun _ => 2) e) ⟨?_, ?_, ?_, ?_, ?_, ?_, trivial⟩
  all_goals
    intro m e he
    first
      | exact (List.not_mem_nil he).elim
      | have he := List.mem_singleton.1 he
        subst he
        first
          | exact ⟨⟨fun _ => ⟨trivial, trivial⟩, fun h => h.elim⟩, trivial⟩
          | exact ⟨⟨fun _ h => h, fun h => h.elim⟩, rfl⟩
          | exact ⟨⟨fun _ h => h, fun h => h.elim⟩, trivial⟩
          | exact ⟨⟨fun _ => ⟨fun h => h, fun h => h⟩, fun h => h.elim⟩, trivial⟩

theorem reordered_tells : Tells (Dead (fun _ _ => True)) (fun _ => 2) reordered := by
  have hd : Dead (fun _ _ => True) = fun _ => False := by
    funext p
    simp [Dead, Live]
  rw [hd]
  refine splits (ops := reordered) (P := fun before o => ∀ m, ∀ e ∈ o.written (runOps before {}).gps.length m,
      Sorted (fun _ => False) e ∧ Counts (fun _ => 2) e) ⟨?_, ?_, ?_, ?_, ?_, ?_, ?_, ?_, trivial⟩
  all_goals
    intro m e he
    first
      | exact (List.not_mem_nil he).elim
      | have he := List.mem_singleton.1 he
        subst he
        first
          | exact ⟨⟨fun _ => ⟨trivial, trivial⟩, fun h => h.elim⟩, trivial⟩
          | exact ⟨⟨fun _ h => h, fun h => h.elim⟩, rfl⟩
          | exact ⟨⟨fun _ h => h, fun h => h.elim⟩, trivial⟩
          | exact ⟨⟨fun _ => ⟨fun h => h, fun h => h⟩, fun h => h.elim⟩, trivial⟩

/-- The log-densities of the observations of the sum are the same. Both exist. -/
example : ∃ r, Logpdf recipe (recipe.take 5) 0 [pinch] r ∧ Logpdf reordered (reordered.take 7) 0 [renamed reorderedId pinch] r := by
  have f1 : FitsV (fun _ _ => True) pinch := ⟨_, rfl, by simp [Rows], rfl, rfl, rfl⟩
  have f2 : FitsV (fun _ _ => True) (renamed reorderedId pinch) := ⟨_, rfl, by simp [Rows], rfl, rfl, rfl⟩
  obtain ⟨r, h1⟩ := logpdf_plain (b := recipe.take 5) (ord := []) (m := 0) recipe_solid.regular f1 (eye_posDef 2 2) rfl ⟨[], rfl⟩
  obtain ⟨r', h2⟩ := logpdf_plain (b := reordered.take 7) (ord := []) (m := 0) reordered_solid.regular f2 (eye_posDef 2 2) rfl ⟨[], rfl⟩
  refine ⟨r, h1, ?_⟩
  rw [C63_logpdf (m := 0) reordered_solid.regular recipe_solid.regular recipe_follows reordered_unmultiplied recipe_unmultiplied reordered_tells recipe_tells h1 h2
    (by simpa using f1) (by simpa using f2) (by simpa using attached_iff.2 (by decide +kernel)) (.refl _)]
  exact h2

end Stheno
