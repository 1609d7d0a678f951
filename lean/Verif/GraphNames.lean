import Verif.Graph

/-!
# Names and prefixes of the specification machine: lemmas
-/

namespace Stheno

theorem lookup_iff {α β : Type} [BEq α] [LawfulBEq α] {l : List (α × β)} (hn : (l.map (·.1)).Nodup)
    {x : α} {y : β} : l.lookup x = some y ↔ (x, y) ∈ l := by
  induction l with
  | nil => simp
  | cons b l ih =>
    obtain ⟨a, b⟩ := b
    simp only [List.map_cons, List.nodup_cons] at hn
    simp only [List.lookup, List.mem_cons, Prod.mk.injEq]
    split
    · next h =>
      have hx : x = a := by simpa using h
      subst hx
      constructor
      · intro h; cases h; exact .inl ⟨rfl, rfl⟩
      · rintro (⟨_, rfl⟩ | h)
        · rfl
        · exact absurd (List.mem_map_of_mem (f := (·.1)) h) hn.1
    · next h =>
      have hx : x ≠ a := by simpa using h
      rw [ih hn.2]
      constructor
      · exact .inr
      · rintro (⟨rfl, _⟩ | h)
        · exact absurd rfl hx
        · exact h

section Names
variable {w : World} {L : AWorld} {m : MId} {a : AMeas}

theorem Inv.gpNamed (h : Inv w L) (ha : L.ms[m]? = some a) (n : String) :
    gpNamed w m n = a.gpsByName.lookup n := by
  obtain ⟨s, hs, hr, hg, _⟩ := h.rel.get ha
  unfold Stheno.gpNamed byName
  simp only [Bind.bind, EStateM.bind, hg, hr.gpsByName]
  cases a.gpsByName.lookup n <;> rfl

theorem Inv.nameAt (h : Inv w L) (ha : L.ms[m]? = some a) (p : PId) :
    nameAt w m p = a.namesByGp.lookup p := by
  obtain ⟨s, hs, hr, hg, _⟩ := h.rel.get ha
  unfold Stheno.nameAt nameOf
  simp only [Bind.bind, EStateM.bind, hg, hr.namesByGp]
  cases a.namesByGp.lookup p <;> rfl

theorem NamesOK.byName (h : NamesOK a) {n : String} {p : PId} :
    a.gpsByName.lookup n = some p ↔ (n, p) ∈ a.gpsByName := lookup_iff h.2.1

theorem NamesOK.byGp (h : NamesOK a) {n : String} {p : PId} :
    a.namesByGp.lookup p = some n ↔ (n, p) ∈ a.gpsByName := by
  rw [lookup_iff]
  · rw [h.1]
    simp only [List.mem_map, Prod.exists, Prod.swap_prod_mk, Prod.mk.injEq]
    constructor
    · rintro ⟨x, y, hm, rfl, rfl⟩; exact hm
    · intro hm; exact ⟨n, p, hm, rfl, rfl⟩
  · rw [h.1]
    simp only [List.map_map]
    exact h.2.2

theorem mem_unname (h : NamesOK a) {p : PId} {b : String × PId} :
    b ∈ (a.unname p).gpsByName ↔ b ∈ a.gpsByName ∧ b.2 ≠ p := by
  unfold AMeas.unname
  cases hl : a.namesByGp.lookup p with
  | none =>
    simp only
    constructor
    · intro hb
      refine ⟨hb, ?_⟩
      rintro rfl
      have := (h.byGp (n := b.1) (p := b.2)).2 hb
      rw [hl] at this; cases this
    · exact (·.1)
  | some old =>
    have hm := h.byGp.1 hl
    simp only [List.mem_filter, bne_iff_ne]
    constructor
    · rintro ⟨hb, hne⟩
      refine ⟨hb, fun he => hne ?_⟩
      have := List.inj_on_of_nodup_map h.2.2 hb hm he
      rw [this]
    · rintro ⟨hb, hne⟩
      refine ⟨hb, fun he => hne ?_⟩
      have := List.inj_on_of_nodup_map h.2.1 hb hm he
      rw [this]

/-- The state after a successful naming. -/
def AMeas.named (a : AMeas) (p : PId) (n : String) : AMeas :=
  { a.unname p with
    gpsByName := (n, p) :: (a.unname p).gpsByName
    namesByGp := (p, n) :: (a.unname p).namesByGp }

theorem setName_spec (ha : L.ms[m]? = some a) (p : PId) (n : String) :
    aSetName m p n L =
      if ((a.unname p).gpsByName.lookup n).isSome then .error .runtime (L.mod m (·.unname p))
      else .ok () (L.mod m (·.named p n)) := by
  have ha1 : (L.mod m (·.unname p)).ms[m]? = some (a.unname p) := by rw [mod_ms, if_pos rfl, ha]; rfl
  have h2 : aGetMeas m L = .ok a L := by simp [aGetMeas, ha]
  have h3 : aGetMeas m (L.mod m (·.unname p)) = .ok (a.unname p) (L.mod m (·.unname p)) := by
    simp only [aGetMeas, ha1]
  unfold aSetName
  change EStateM.bind (aGetMeas m) _ L = _
  simp only [EStateM.bind, h2]
  change EStateM.bind (aGetMeas m) _ (L.mod m (·.unname p)) = _
  simp only [EStateM.bind, h3]
  by_cases hc : ((a.unname p).gpsByName.lookup n).isSome
  · simp only [if_pos hc]; rfl
  · simp only [if_neg hc]
    change EStateM.Result.ok () _ = _
    congr 1
    simp only [AWorld.mod]
    congr 1
    apply List.ext_getElem?
    intro j
    rw [List.getElem?_modify, List.getElem?_modify, List.getElem?_modify]
    by_cases hj : m = j
    · subst hj; simp [ha, AMeas.named]
    · simp [hj]

theorem isSome_lookup_unname (h : NamesOK a) {p : PId} {n : String} :
    ((a.unname p).gpsByName.lookup n).isSome ↔ ∃ q, q ≠ p ∧ a.gpsByName.lookup n = some q := by
  rw [Option.isSome_iff_exists]
  constructor
  · rintro ⟨q, hq⟩
    rw [(namesOK_unname h p).1.byName, mem_unname h] at hq
    exact ⟨q, hq.2, h.byName.2 hq.1⟩
  · rintro ⟨q, hne, hq⟩
    exact ⟨q, (namesOK_unname h p).1.byName.2 ((mem_unname h).2 ⟨h.byName.1 hq, hne⟩)⟩

end Names

/-! ## What a lookup depends on -/

theorem kernel_prefix {L L' : AWorld} (st : Stable L) (st' : Stable L') {n : ℕ}
    (h : ∀ k : MId, k < n → L'.ms[k]? = L.ms[k]?) : ∀ m : MId, m < n → ∀ i j,
      L'.kernel m i j = L.kernel m i j := by
  intro m
  induction m using Nat.strong_induction_on with
  | _ m ih =>
    intro hm i j
    cases ha : L.ms[m]? with
    | none => simp [AWorld.kernel, specKAux, h m hm, ha]
    | some a =>
      rw [kernel_eq st.base_lt ha, kernel_eq st'.base_lt ((h m hm).trans ha)]
      congr 1
      funext i j
      unfold AWorld.baseK
      cases hb : a.base with
      | none => rfl
      | some u =>
        have hlt := st.base_lt m a ha u hb
        have : L'.kernel u.prior = L.kernel u.prior := by
          funext i j; exact ih u.prior hlt (Nat.lt_trans hlt hm) i j
        simp only [this]

theorem mean_prefix {L L' : AWorld} (st : Stable L) (st' : Stable L') {n : ℕ}
    (h : ∀ k : MId, k < n → L'.ms[k]? = L.ms[k]?) : ∀ m : MId, m < n → ∀ i,
      L'.mean m i = L.mean m i := by
  intro m
  induction m using Nat.strong_induction_on with
  | _ m ih =>
    intro hm i
    cases ha : L.ms[m]? with
    | none => simp [AWorld.mean, specMAux, h m hm, ha]
    | some a =>
      rw [mean_eq st.base_lt ha, mean_eq st'.base_lt ((h m hm).trans ha)]
      congr 1
      funext i
      unfold AWorld.baseM
      cases hb : a.base with
      | none => rfl
      | some u =>
        have hlt := st.base_lt m a ha u hb
        have h1 : L'.kernel u.prior = L.kernel u.prior := by
          funext i j; exact kernel_prefix st st' h u.prior (Nat.lt_trans hlt hm) i j
        have h2 : L'.mean u.prior = L.mean u.prior := by
          funext i; exact ih u.prior hlt (Nat.lt_trans hlt hm) i
        simp only [h1, h2]

theorem cond_ms {L : AWorld} {m : MId} {a : AMeas} {obs : Obs} (k : MId) (hk : k < L.ms.length) :
    (L.cond m a obs).ms[k]? = L.ms[k]? := by
  show (L.ms ++ [_])[k]? = _
  rw [fresh_measure_ms, if_neg (Nat.ne_of_lt hk)]

theorem cond_ms_new {L : AWorld} {m : MId} {a : AMeas} {obs : Obs} :
    (L.cond m a obs).ms[L.ms.length]? = some { base := some ⟨m, obs⟩, basePs := a.ps } := by
  show (L.ms ++ [_])[L.ms.length]? = _
  rw [fresh_measure_ms, if_pos rfl]

/-! ## Operations never run out of fuel -/

/-- The exceptions a program may raise. -/
def Raises {α : Type} (E : Err → Prop) (c : AM α) : Prop := ∀ L e L', c L = .error e L' → E e

section Raises
variable {E : Err → Prop} {α β : Type}

theorem Raises.bind {c : AM α} {f : α → AM β} (hc : Raises E c) (hf : ∀ v, Raises E (f v)) :
    Raises E (c >>= f) := by
  intro L e L' h
  change EStateM.bind c f L = _ at h
  unfold EStateM.bind at h
  cases hcl : c L with
  | ok v L1 => rw [hcl] at h; exact hf v L1 e L' h
  | error e1 L1 => rw [hcl] at h; cases h; exact hc L _ _ hcl

theorem Raises.pure (v : α) : Raises E (Pure.pure v : AM α) := by
  intro L e L' h; cases h

theorem Raises.throw {e : Err} (h : E e) : Raises E (throw e : AM α) := by
  intro L e' L' h'; cases h'; exact h

variable (hE : ∀ e, e ≠ .fuel → E e)
include hE

theorem Raises.getMeas (m : MId) : Raises E (aGetMeas m) := by
  intro L e L' h; unfold aGetMeas at h
  cases hm : L.ms[m]? <;> rw [hm] at h <;> cases h
  exact hE _ (by simp)

theorem Raises.measuresOf (p : PId) : Raises E (aMeasuresOf p) := by
  intro L e L' h; unfold aMeasuresOf at h
  cases hm : L.gps[p]? <;> rw [hm] at h <;> cases h
  exact hE _ (by simp)

theorem Raises.define (m : MId) (p : PId) (d : ProcDef) : Raises E (aDefine m p d) := by
  intro L e L' h; unfold aDefine at h
  split at h <;> cases h
  exact hE _ (by simp)

omit hE in
theorem Raises.newGP : Raises E aNewGP := by intro L e L' h; cases h
omit hE in
theorem Raises.newMeasure : Raises E aNewMeasure := by intro L e L' h; cases h

theorem Raises.primary (p : PId) : Raises E (aPrimary p) := by
  refine (Raises.measuresOf hE p).bind fun l => ?_
  cases l with
  | nil => exact Raises.throw (hE _ (by simp))
  | cons m _ => exact Raises.pure m

theorem Raises.assertSame (p : PId) : (qs : List PId) → Raises E (aAssertSame p qs)
  | [] => Raises.pure ()
  | q :: qs => by
    refine (Raises.primary hE p).bind fun mp => (Raises.primary hE q).bind fun mq => ?_
    split
    · exact Raises.assertSame p qs
    · exact Raises.throw (hE _ (by simp))

theorem Raises.sum (m : MId) (res p q : PId) : Raises E (aSum m res p q) :=
  (Raises.assertSame hE p [q]).bind fun _ => Raises.define hE m res _

theorem Raises.mul (m : MId) (res p q : PId) : Raises E (aMul m res p q) :=
  (Raises.assertSame hE p [q]).bind fun _ => Raises.newGP.bind fun _ => Raises.newGP.bind fun _ =>
  (Raises.define hE _ _ _).bind fun _ => Raises.newGP.bind fun _ =>
  (Raises.define hE _ _ _).bind fun _ => (Raises.sum hE _ _ _ _).bind fun _ =>
  Raises.newGP.bind fun _ => (Raises.define hE _ _ _).bind fun _ => Raises.sum hE _ _ _ _

omit hE in
theorem Raises.forM {γ : Type} (l : List γ) {f : γ → AM Unit} (h : ∀ m, Raises E (f m)) :
    Raises E (l.forM f) := by
  induction l with
  | nil => exact Raises.pure ()
  | cons m l ih => exact (h m).bind fun _ => ih

omit hE in
theorem Raises.mapM {γ δ : Type} (l : List γ) {f : γ → AM δ} (h : ∀ m, Raises E (f m)) :
    Raises E (l.mapM f) := by
  induction l with
  | nil => rw [List.mapM_nil]; exact Raises.pure []
  | cons m l ih =>
    rw [List.mapM_cons]
    exact (h m).bind fun _ => ih.bind fun _ => Raises.pure _

theorem Raises.intersection (p : PId) (qs : List PId) : Raises E (aIntersection p qs) :=
  (Raises.assertSame hE p qs).bind fun _ => (Raises.measuresOf hE p).bind fun _ =>
  (Raises.mapM qs fun q => Raises.measuresOf hE q).bind fun _ => Raises.pure _

theorem Raises.iterate (s ord : List MId) {f : MId → AM Unit} (h : ∀ m, Raises E (f m)) :
    Raises E (aIterate s ord f) := by
  unfold aIterate
  split
  · exact Raises.forM ord h
  · exact Raises.throw (hE _ (by simp))

theorem Raises.setName (m : MId) (p : PId) (n : String) : Raises E (aSetName m p n) := by
  refine (Raises.getMeas hE m).bind fun _ => Raises.bind (fun L e L' h => by cases h) fun _ =>
    (Raises.getMeas hE m).bind fun a => ?_
  split
  · exact Raises.throw (hE _ (by simp))
  · exact fun L e L' h => by cases h

theorem Raises.resolve (x : Option MId) : Raises E (aResolve x) := by
  cases x with
  | some m => exact (Raises.getMeas hE m).bind fun _ => Raises.pure m
  | none =>
    refine Raises.bind (fun L e L' h => by cases h) fun L => ?_
    cases L.default with
    | some m => exact Raises.pure m
    | none => exact Raises.newMeasure

theorem Raises.nameNew (m : MId) (p : PId) (x : Option String) : Raises E (aNameNew m p x) := by
  cases x with
  | none => exact Raises.pure ()
  | some n =>
    change Raises E (if n = "" then Pure.pure () else aSetName m p n)
    by_cases h : n = ""
    · rw [if_pos h]; exact Raises.pure ()
    · rw [if_neg h]; exact Raises.setName hE m p n

omit hE in
theorem Raises.forget {c : AM α} (h : Raises E c) : Raises E (do let _ ← c) :=
  h.bind fun _ => Raises.pure ()

theorem Raises.unary (d : ProcDef) (p : PId) : Raises E (aUnary d p) :=
  Raises.newGP.bind fun _ => (Raises.measuresOf hE p).bind fun ms =>
    (Raises.forM ms fun _ => Raises.define hE _ _ _).bind fun _ => Raises.pure _

theorem Raises.op (o : Op) : Raises E o.spec := by
  cases o with
  | newMeasure => exact Raises.newMeasure.forget
  | newGP => exact Raises.newGP.forget
  | gp mean kernel measure nm =>
    exact (Raises.newGP.bind fun p => (Raises.resolve hE measure).bind fun m =>
      (Raises.define hE m p _).bind fun _ => (Raises.nameNew hE m p nm).bind fun _ =>
      Raises.pure p).forget
  | addFn p f => exact (Raises.unary hE _ p).forget
  | add p q ord =>
    exact (Raises.newGP.bind fun res => (Raises.intersection hE p [q]).bind fun s =>
      (Raises.iterate hE s ord fun m => Raises.sum hE m res p q).bind fun _ =>
      Raises.pure res).forget
  | scale p c => exact (Raises.unary hE _ p).forget
  | fmul p f => exact (Raises.unary hE _ p).forget
  | mul p q ord =>
    exact (Raises.newGP.bind fun res => (Raises.intersection hE p [q]).bind fun s =>
      (Raises.iterate hE s ord fun m => Raises.mul hE m res p q).bind fun _ =>
      Raises.pure res).forget
  | pre p t => exact (Raises.unary hE _ p).forget
  | diff p d => exact (Raises.unary hE _ p).forget
  | cross ps ord =>
    refine (Raises.newGP.bind fun res => ?_).forget
    cases ps with
    | nil => exact Raises.throw (hE _ (by simp))
    | cons p qs =>
      exact (Raises.intersection hE p qs).bind fun s =>
        (Raises.iterate hE s ord fun m => Raises.define hE m res _).bind fun _ => Raises.pure res
  | addGP m mean kernel left right =>
    refine ((Raises.getMeas hE m).bind fun a => ?_).forget
    split
    · exact Raises.newGP.bind fun p => (Raises.define hE m p _).bind fun _ => Raises.pure p
    · exact Raises.throw (hE _ (by simp))
  | call m p =>
    exact (Raises.newGP.bind fun pc => (Raises.getMeas hE m).bind fun _ =>
      (Raises.define hE m pc _).bind fun _ => Raises.pure pc).forget
  | condition m obs =>
    refine Raises.forget fun L e L' h => ?_
    unfold aCondition at h
    cases hm : L.ms[m]? <;> rw [hm] at h <;> cases h
    exact hE _ (by simp)
  | getM m p =>
    refine Raises.forget fun L e L' h => ?_
    unfold aGetM at h
    split at h
    · cases hm : L.mean m p <;> rw [hm] at h <;> cases h
      exact hE _ (by simp)
    · cases h; exact hE _ (by simp)
  | getK m p q =>
    refine Raises.forget fun L e L' h => ?_
    unfold aGetK at h
    split at h
    · cases hm : L.kernel m p q <;> rw [hm] at h <;> cases h
      exact hE _ (by simp)
    · cases h; exact hE _ (by simp)
  | name m p s => exact Raises.setName hE m p s
  | gpName p s =>
    exact (Raises.measuresOf hE p).bind fun ms => Raises.forM ms fun m => Raises.setName hE m p s
  | enter m =>
    exact (Raises.getMeas hE m).bind fun _ => Raises.bind (fun L e L' h => by cases h) fun _ =>
      Raises.bind (fun L e L' h => by cases h) fun _ => fun L e L' h => by cases h
  | exit m => exact (Raises.getMeas hE m).bind fun _ => fun L e L' h => by cases h

end Raises

end Stheno
