import Verif.GraphNames

/-!
# The state after a successful operation of the specification machine: lemmas
-/

namespace Stheno

/-- `p` is defined by `d` in each of the measures `ms`. -/
def AWorld.pushAll (L : AWorld) (ms : List MId) (p : PId) (d : ProcDef) : AWorld :=
  ms.foldl (fun L m => L.push m p d) L

/-- The state with one more process. -/
def AWorld.new (L : AWorld) : AWorld := { L with gps := L.gps ++ [[]] }

section PushAll
variable {L : AWorld} {ms : List MId} {p : PId} {d : ProcDef}

theorem pushAll_ms (hn : ms.Nodup) (m : MId) : (L.pushAll ms p d).ms[m]? =
    if m ∈ ms then L.ms[m]?.map (fun a => { a with defs := (p, d) :: a.defs }) else L.ms[m]? := by
  induction ms generalizing L with
  | nil => rfl
  | cons m' ms ih =>
    simp only [List.nodup_cons] at hn
    show (AWorld.pushAll (L.push m' p d) ms p d).ms[m]? = _
    rw [ih hn.2, push_ms]
    by_cases h : m' = m
    · subst h; rw [if_neg hn.1]; simp
    · have : m ≠ m' := fun e => h e.symm
      simp [h, this]

theorem pushAll_gps (q : PId) : (L.pushAll ms p d).gps[q]? =
    if p = q then L.gps[q]?.map (· ++ ms) else L.gps[q]? := by
  induction ms generalizing L with
  | nil => simp [AWorld.pushAll]
  | cons m' ms ih =>
    show (AWorld.pushAll (L.push m' p d) ms p d).gps[q]? = _
    rw [ih, push_gps]
    by_cases h : p = q
    · subst h; simp [Function.comp_def]
    · simp [h]

theorem pushAll_gps_length : (L.pushAll ms p d).gps.length = L.gps.length := by
  induction ms generalizing L with
  | nil => rfl
  | cons m' ms ih =>
    show (AWorld.pushAll (L.push m' p d) ms p d).gps.length = _
    rw [ih, push_gps_length]

theorem pushAll_ms_length : (L.pushAll ms p d).ms.length = L.ms.length := by
  induction ms generalizing L with
  | nil => rfl
  | cons m' ms ih =>
    show (AWorld.pushAll (L.push m' p d) ms p d).ms.length = _
    rw [ih, push_ms_length]

end PushAll

/-! ## Inversion of programs -/

theorem bind_ok {α β : Type} {c : AM α} {f : α → AM β} {L L' : AWorld} {v : β}
    (h : (c >>= f) L = .ok v L') : ∃ u L1, c L = .ok u L1 ∧ f u L1 = .ok v L' := by
  change EStateM.bind c f L = _ at h
  unfold EStateM.bind at h
  cases hc : c L with
  | ok u L1 => rw [hc] at h; exact ⟨u, L1, rfl, h⟩
  | error e L1 => rw [hc] at h; cases h

theorem bind_of_ok {α β : Type} {c : AM α} {f : α → AM β} {L L1 : AWorld} {u : α}
    (h : c L = .ok u L1) : (c >>= f) L = f u L1 := by
  change EStateM.bind c f L = _
  unfold EStateM.bind
  rw [h]

theorem bind_of_error {α β : Type} {c : AM α} {f : α → AM β} {L L1 : AWorld} {e : Err}
    (h : c L = .error e L1) : (c >>= f) L = .error e L1 := by
  change EStateM.bind c f L = _
  unfold EStateM.bind
  rw [h]

theorem pure_ok {α : Type} {v v' : α} {L L' : AWorld} (h : (pure v : AM α) L = .ok v' L') :
    v' = v ∧ L' = L := by
  cases h; exact ⟨rfl, rfl⟩

theorem aDefine_ok {m : MId} {p : PId} {d : ProcDef} {L L' : AWorld} {u : Unit}
    (h : aDefine m p d L = .ok u L') : L' = L.push m p d ∧ (defMean m (L.mean m) d).isSome ∧
      (defKernel m (L.kernel m) d).isSome := by
  unfold aDefine at h
  by_cases hc : (defMean m (L.mean m) d).isSome ∧ (defKernel m (L.kernel m) d).isSome
  · rw [if_pos hc] at h; cases h; exact ⟨rfl, hc⟩
  · rw [if_neg hc] at h; cases h

theorem aPrimary_eq (p : PId) (L : AWorld) : aPrimary p L = match L.gps[p]? with
    | none => .error .dangling L
    | some [] => .error .runtime L
    | some (m :: _) => .ok m L := by
  unfold aPrimary
  change EStateM.bind (aMeasuresOf p) _ L = _
  simp only [EStateM.bind, aMeasuresOf]
  cases L.gps[p]? with
  | none => rfl
  | some l => cases l <;> rfl

theorem aPrimary_ok {p : PId} {L L' : AWorld} {m : MId} (h : aPrimary p L = .ok m L') :
    L' = L ∧ ∃ l, L.gps[p]? = some (m :: l) := by
  rw [aPrimary_eq] at h
  cases hp : L.gps[p]? with
  | none => rw [hp] at h; cases h
  | some l =>
    rw [hp] at h
    cases l with
    | nil => cases h
    | cons m' l => cases h; exact ⟨rfl, l, rfl⟩

theorem aMeasuresOf_ok {p : PId} {L L' : AWorld} {l : List MId} (h : aMeasuresOf p L = .ok l L') :
    L' = L ∧ L.gps[p]? = some l := by
  unfold aMeasuresOf at h
  cases hp : L.gps[p]? with
  | none => rw [hp] at h; cases h
  | some l' => rw [hp] at h; cases h; exact ⟨rfl, rfl⟩

/-- The processes have the same primary measure. -/
def SamePrimary (L : AWorld) (p : PId) (qs : List PId) : Prop :=
  ∀ q ∈ qs, ∃ m l l', L.gps[p]? = some (m :: l) ∧ L.gps[q]? = some (m :: l')

theorem aAssertSame_ok {p : PId} {qs : List PId} {L L' : AWorld} {u : Unit}
    (h : aAssertSame p qs L = .ok u L') : L' = L ∧ SamePrimary L p qs := by
  induction qs with
  | nil => cases h; exact ⟨rfl, fun q hq => by simp at hq⟩
  | cons q qs ih =>
    obtain ⟨mp, L1, h1, h3⟩ := bind_ok h
    obtain ⟨mq, L2, h2, h4⟩ := bind_ok h3
    obtain ⟨rfl, l, hl⟩ := aPrimary_ok h1
    obtain ⟨rfl, l', hl'⟩ := aPrimary_ok h2
    by_cases hm : mp = mq
    · rw [if_pos hm] at h4
      obtain ⟨rfl, h3⟩ := ih h4
      refine ⟨rfl, fun r hr => ?_⟩
      rcases List.mem_cons.1 hr with rfl | hr
      · exact ⟨mp, l, l', hl, by rw [hm]; exact hl'⟩
      · exact h3 r hr
    · rw [if_neg hm] at h4; cases h4

theorem aAssertSame_of {p : PId} {qs : List PId} {L : AWorld} (h : SamePrimary L p qs) :
    aAssertSame p qs L = .ok () L := by
  induction qs with
  | nil => rfl
  | cons q qs ih =>
    obtain ⟨m, l, l', h1, h2⟩ := h q (List.mem_cons_self ..)
    have e1 : aPrimary p L = .ok m L := by rw [aPrimary_eq, h1]
    have e2 : aPrimary q L = .ok m L := by rw [aPrimary_eq, h2]
    unfold aAssertSame
    rw [bind_of_ok e1, bind_of_ok e2, if_pos rfl]
    exact ih (fun r hr => h r (List.mem_cons_of_mem _ hr))

/-- Different primary measures are detected. -/
theorem aAssertSame_error {p : PId} {qs : List PId} {L : AWorld} {mp : MId}
    (hp : aPrimary p L = .ok mp L) (hqs : ∀ q ∈ qs, ∃ mq, aPrimary q L = .ok mq L)
    (hd : ∃ q ∈ qs, aPrimary q L ≠ .ok mp L) : aAssertSame p qs L = .error .assertion L := by
  induction qs with
  | nil => obtain ⟨q, hq, _⟩ := hd; simp at hq
  | cons q qs ih =>
    obtain ⟨mq, hq⟩ := hqs q (List.mem_cons_self ..)
    unfold aAssertSame
    rw [bind_of_ok hp, bind_of_ok hq]
    by_cases hm : mp = mq
    · rw [if_pos hm]
      refine ih (fun r hr => hqs r (List.mem_cons_of_mem _ hr)) ?_
      obtain ⟨r, hr, hne⟩ := hd
      rcases List.mem_cons.1 hr with rfl | hr
      · rw [hm] at hne; exact absurd hq hne
      · exact ⟨r, hr, hne⟩
    · rw [if_neg hm]; rfl

theorem mapM_measuresOf {ps : List PId} {L L' : AWorld} {ls : List (List MId)}
    (h : ps.mapM aMeasuresOf L = .ok ls L') : L' = L ∧ (∀ q ∈ ps, q < L.gps.length) ∧
      ls = ps.map (fun q => L.gps[q]?.getD []) := by
  induction ps generalizing ls with
  | nil => rw [List.mapM_nil] at h; obtain ⟨rfl, rfl⟩ := pure_ok h; exact ⟨rfl, by simp, rfl⟩
  | cons q ps ih =>
    rw [List.mapM_cons] at h
    obtain ⟨l, L1, h1, h⟩ := bind_ok h
    obtain ⟨ls', L2, h2, h⟩ := bind_ok h
    obtain ⟨rfl, rfl⟩ := pure_ok h
    obtain ⟨rfl, hl⟩ := aMeasuresOf_ok h1
    obtain ⟨rfl, h3, rfl⟩ := ih h2
    refine ⟨rfl, ?_, by simp [hl]⟩
    intro r hr
    rcases List.mem_cons.1 hr with rfl | hr
    · exact (List.getElem?_eq_some_iff.1 hl).1
    · exact h3 r hr

theorem mapM_measuresOf_of {ps : List PId} {L : AWorld} (h : ∀ q ∈ ps, q < L.gps.length) :
    ps.mapM aMeasuresOf L = .ok (ps.map (fun q => L.gps[q]?.getD [])) L := by
  induction ps with
  | nil => rw [List.mapM_nil]; rfl
  | cons q ps ih =>
    have hq := h q (List.mem_cons_self ..)
    have e : aMeasuresOf q L = .ok L.gps[q] L := by
      unfold aMeasuresOf; rw [List.getElem?_eq_getElem hq]
    rw [List.mapM_cons, bind_of_ok e, bind_of_ok (ih fun r hr => h r (List.mem_cons_of_mem _ hr))]
    simp [List.getElem?_eq_getElem hq]
    rfl

theorem aIntersection_ok {p : PId} {qs : List PId} {L L' : AWorld} {s : List MId}
    (h : aIntersection p qs L = .ok s L') : L' = L ∧ SamePrimary L p qs ∧ s = common L p qs ∧
      p < L.gps.length ∧ ∀ q ∈ qs, q < L.gps.length := by
  obtain ⟨_, L1, h1, h⟩ := bind_ok h
  obtain ⟨ms, L2, h2, h⟩ := bind_ok h
  obtain ⟨ls, L3, h3, h⟩ := bind_ok h
  obtain ⟨rfl, rfl⟩ := pure_ok h
  obtain ⟨rfl, hs⟩ := aAssertSame_ok h1
  obtain ⟨rfl, hp⟩ := aMeasuresOf_ok h2
  obtain ⟨rfl, hl, rfl⟩ := mapM_measuresOf h3
  refine ⟨rfl, hs, ?_, (List.getElem?_eq_some_iff.1 hp).1, hl⟩
  simp only [common, hp, Option.getD_some, List.all_map]
  rfl

theorem aIntersection_of {p : PId} {qs : List PId} {L : AWorld} (hs : SamePrimary L p qs)
    (hp : p < L.gps.length) (hq : ∀ q ∈ qs, q < L.gps.length) :
    aIntersection p qs L = .ok (common L p qs) L := by
  have e : aMeasuresOf p L = .ok L.gps[p] L := by
    unfold aMeasuresOf; rw [List.getElem?_eq_getElem hp]
  unfold aIntersection
  rw [bind_of_ok (aAssertSame_of hs), bind_of_ok e, bind_of_ok (mapM_measuresOf_of hq)]
  simp only [common, List.getElem?_eq_getElem hp, Option.getD_some, List.all_map]
  rfl

theorem forM_ok {f : MId → AM Unit} {g : AWorld → MId → AWorld} {ms : List MId} {L L' : AWorld} {u : Unit}
    (hf : ∀ m L L' u, f m L = .ok u L' → L' = g L m) (h : ms.forM f L = .ok u L') :
    L' = ms.foldl g L := by
  induction ms generalizing L with
  | nil => cases h; rfl
  | cons m ms ih =>
    obtain ⟨_, L1, h1, h⟩ := bind_ok h
    rw [hf m _ _ _ h1] at h
    exact ih h

theorem aIterate_ok {f : MId → AM Unit} {g : AWorld → MId → AWorld} {s ord : List MId} {L L' : AWorld}
    {u : Unit} (hf : ∀ m L L' u, f m L = .ok u L' → L' = g L m) (h : aIterate s ord f L = .ok u L') :
    L' = ord.foldl g L ∧ ord.Perm s := by
  unfold aIterate at h
  by_cases hp : ord.isPerm s
  · rw [if_pos hp] at h; exact ⟨forM_ok hf h, List.isPerm_iff.1 hp⟩
  · rw [if_neg hp] at h; cases h

theorem aSum_ok {m : MId} {res p q : PId} {L L' : AWorld} {u : Unit} (h : aSum m res p q L = .ok u L') :
    L' = L.push m res (.sum p q) := by
  obtain ⟨_, L1, h1, h2⟩ := bind_ok h
  obtain ⟨rfl, _⟩ := aAssertSame_ok h1
  exact (aDefine_ok h2).1

theorem aUnary_ok {d : ProcDef} {p : PId} {L L' : AWorld} {v : PId} (h : aUnary d p L = .ok v L') :
    v = L.gps.length ∧ ∃ ms, L.new.gps[p]? = some ms ∧ L' = L.new.pushAll ms L.gps.length d := by
  obtain ⟨res, L1, h1, h⟩ := bind_ok h
  obtain ⟨ms, L2, h2, h⟩ := bind_ok h
  obtain ⟨_, L3, h3, h⟩ := bind_ok h
  obtain ⟨rfl, rfl⟩ := pure_ok h
  cases h1
  obtain ⟨rfl, hp⟩ := aMeasuresOf_ok h2
  exact ⟨rfl, ms, hp, forM_ok (g := fun L m => L.push m _ d) (fun m L L' u h => (aDefine_ok h).1) h3⟩

theorem aAdd_ok {p q : PId} {ord : List MId} {L L' : AWorld} {v : PId} (h : aAdd p q ord L = .ok v L') :
    v = L.gps.length ∧ SamePrimary L.new p [q] ∧ ord.Perm (common L.new p [q]) ∧
      L' = L.new.pushAll ord L.gps.length (.sum p q) := by
  obtain ⟨res, L1, h1, h⟩ := bind_ok h
  obtain ⟨s, L2, h2, h⟩ := bind_ok h
  obtain ⟨_, L3, h3, h⟩ := bind_ok h
  obtain ⟨rfl, rfl⟩ := pure_ok h
  cases h1
  obtain ⟨rfl, hs, rfl, _⟩ := aIntersection_ok h2
  obtain ⟨rfl, hp⟩ := aIterate_ok (g := fun L' m => L'.push m L.gps.length (.sum p q))
    (fun m L L' u h => aSum_ok h) h3
  exact ⟨rfl, hs, hp, rfl⟩

theorem aCross_ok {ps : List PId} {ord : List MId} {L L' : AWorld} {v : PId}
    (h : aCross ps ord L = .ok v L') : v = L.gps.length ∧ ∃ p qs, ps = p :: qs ∧
      SamePrimary L.new p qs ∧ ord.Perm (common L.new p qs) ∧
      L' = L.new.pushAll ord L.gps.length (.cross ps) := by
  obtain ⟨res, L1, h1, h⟩ := bind_ok h
  cases h1
  cases ps with
  | nil => cases h
  | cons p qs =>
    obtain ⟨s, L2, h2, h⟩ := bind_ok h
    obtain ⟨_, L3, h3, h⟩ := bind_ok h
    obtain ⟨rfl, rfl⟩ := pure_ok h
    obtain ⟨rfl, hs, rfl, _⟩ := aIntersection_ok h2
    obtain ⟨rfl, hp⟩ := aIterate_ok (g := fun L' m => L'.push m L.gps.length (.cross (p :: qs)))
      (fun m L L' u h => (aDefine_ok h).1) h3
    exact ⟨rfl, p, qs, rfl, hs, hp, rfl⟩

theorem aCall_ok {m : MId} {p : PId} {L L' : AWorld} {v : PId} (h : aCall m p L = .ok v L') :
    v = L.gps.length ∧ m < L.ms.length ∧ L' = L.new.push m L.gps.length (.copy p) := by
  obtain ⟨res, L1, h1, h⟩ := bind_ok h
  cases h1
  obtain ⟨a, L2, h2, h⟩ := bind_ok h
  obtain ⟨_, L3, h3, h⟩ := bind_ok h
  obtain ⟨rfl, rfl⟩ := pure_ok h
  unfold aGetMeas at h2
  cases ha : L.ms[m]? with
  | none => simp only [ha] at h2; cases h2
  | some a' =>
    simp only [ha] at h2; cases h2
    exact ⟨rfl, (List.getElem?_eq_some_iff.1 ha).1, (aDefine_ok h3).1⟩

/-- The definitions written by the product of two processes in one measure. -/
noncomputable def AWorld.mulPush (L : AWorld) (m : MId) (res p q : PId) : AWorld :=
  let n := L.gps.length
  ((((((L.new.new.push m (n + 1) (.fmul q (.meanOf m p))).new.push m (n + 2)
    (.fmul p (.meanOf m q))).push m n (.sum (n + 1) (n + 2))).new.push m (n + 3) (.rem p q)).push m res
    (.sum n (n + 3))))

theorem aMul_ok {m : MId} {res p q : PId} {L L' : AWorld} {u : Unit} (h : aMul m res p q L = .ok u L') :
    L' = L.mulPush m res p q := by
  obtain ⟨_, L1, h1, g1⟩ := bind_ok h
  obtain ⟨rfl, _⟩ := aAssertSame_ok h1
  obtain ⟨t1, L2, h2, g2⟩ := bind_ok g1; cases h2
  obtain ⟨a, L3, h3, g3⟩ := bind_ok g2; cases h3
  obtain ⟨_, L4, h4, g4⟩ := bind_ok g3; obtain ⟨rfl, _⟩ := aDefine_ok h4
  obtain ⟨b, L5, h5, g5⟩ := bind_ok g4; cases h5
  obtain ⟨_, L6, h6, g6⟩ := bind_ok g5; obtain ⟨rfl, _⟩ := aDefine_ok h6
  obtain ⟨_, L7, h7, g7⟩ := bind_ok g6; obtain rfl := aSum_ok h7
  obtain ⟨t2, L8, h8, g8⟩ := bind_ok g7; cases h8
  obtain ⟨_, L9, h9, g9⟩ := bind_ok g8; obtain ⟨rfl, _⟩ := aDefine_ok h9
  obtain rfl := aSum_ok g9
  simp only [AWorld.mulPush, push_gps_length, List.length_append, List.length_singleton, AWorld.new]

theorem aGpMul_ok {p q : PId} {ord : List MId} {L L' : AWorld} {v : PId}
    (h : aGpMul p q ord L = .ok v L') :
    v = L.gps.length ∧ SamePrimary L.new p [q] ∧ ord.Perm (common L.new p [q]) ∧
      L' = ord.foldl (fun L' m => L'.mulPush m L.gps.length p q) L.new := by
  obtain ⟨res, L1, h1, h⟩ := bind_ok h
  obtain ⟨s, L2, h2, h⟩ := bind_ok h
  obtain ⟨_, L3, h3, h⟩ := bind_ok h
  obtain ⟨rfl, rfl⟩ := pure_ok h
  cases h1
  obtain ⟨rfl, hs, rfl, _⟩ := aIntersection_ok h2
  obtain ⟨rfl, hp⟩ := aIterate_ok (g := fun L' m => L'.mulPush m L.gps.length p q)
    (fun m L L' u h => aMul_ok h) h3
  exact ⟨rfl, hs, hp, rfl⟩

/-! ## Success in sane states -/

/-- States in which lookups of attached processes return. -/
structure Good (L : AWorld) : Prop where
  wf : Wf L
  sane : Sane L

/-- The measure knows the processes. -/
def Knows (L : AWorld) (m : MId) (ps : List PId) : Prop := ∃ a, L.ms[m]? = some a ∧ ∀ q ∈ ps, q ∈ a.ps

section Good
variable {L : AWorld} {m m' : MId} {p q res : PId} {d : ProcDef} {ps qs : List PId}

theorem Knows.sub (h : Knows L m ps) (hs : ∀ q ∈ qs, q ∈ ps) : Knows L m qs := by
  obtain ⟨a, ha, h⟩ := h
  exact ⟨a, ha, fun q hq => h q (hs q hq)⟩

theorem Knows.new (h : Knows L m ps) : Knows L.new m ps := h

theorem Knows.push (h : Knows L m ps) : Knows (L.push m' p d) m ps := by
  obtain ⟨a, ha, h⟩ := h
  unfold Knows
  rw [push_ms]
  split
  · exact ⟨_, by rw [ha]; rfl, fun q hq => by
      simp only [AMeas.ps, knownOf_cons, List.mem_append]
      exact .inl (h q hq)⟩
  · exact ⟨a, ha, h⟩

theorem Knows.push_self (h : Knows L m ps) : Knows (L.push m p d) m (p :: ps) := by
  obtain ⟨a, ha, h⟩ := h
  refine ⟨{ a with defs := (p, d) :: a.defs }, by rw [push_ms, if_pos rfl, ha]; rfl, fun q hq => ?_⟩
  simp only [AMeas.ps, knownOf_cons, List.mem_append, List.mem_singleton]
  rcases List.mem_cons.1 hq with rfl | hq
  · exact .inr rfl
  · exact .inl (h q hq)

theorem SamePrimary.ext {L' : AWorld} (h : SamePrimary L p qs)
    (hg : ∀ (r : PId) l, L.gps[r]? = some l → ∃ l', L'.gps[r]? = some (l ++ l')) : SamePrimary L' p qs := by
  intro r hr
  obtain ⟨m, l, l', h1, h2⟩ := h r hr
  obtain ⟨x, hx⟩ := hg _ _ h1
  obtain ⟨y, hy⟩ := hg _ _ h2
  exact ⟨m, l ++ x, l' ++ y, hx, hy⟩

theorem SamePrimary.push (h : SamePrimary L p qs) : SamePrimary (L.push m res d) p qs := h.ext push_ext.gps

theorem new_gps {r : PId} {l : List MId} (h : L.gps[r]? = some l) : L.new.gps[r]? = some l := by
  show (L.gps ++ [[]])[r]? = _
  rw [List.getElem?_append_left (List.getElem?_eq_some_iff.1 h).1]; exact h

theorem SamePrimary.new (h : SamePrimary L p qs) : SamePrimary L.new p qs :=
  h.ext fun r l hl => ⟨[], by rw [List.append_nil]; exact new_gps hl⟩

theorem Wf.new (h : Wf L) : Wf L.new := by
  have hg : ∀ (p : PId) l, L.new.gps[p]? = some l → L.gps[p]? = some l ∨ l = [] := by
    intro p l hl
    change (L.gps ++ [[]])[p]? = some l at hl
    rw [List.getElem?_append] at hl
    split at hl
    · exact .inl hl
    · rw [List.getElem?_singleton] at hl
      split at hl
      · right; simpa using hl.symm
      · simp at hl
  refine ⟨WfMs.congr (L := L) rfl h.ms, ?_, ?_, ?_, h.default, h.prevDefault, h.names⟩
  · intro m a ha p hp
    obtain ⟨l, hl, hm⟩ := h.mem_gps m a ha p hp
    exact ⟨l, new_gps hl, hm⟩
  · intro p l hl m hm
    rcases hg p l hl with h' | rfl
    · exact h.gps_mem p l h' m hm
    · simp at hm
  · intro p l hl
    rcases hg p l hl with h' | rfl
    · exact h.gps_nodup p l h'
    · simp

theorem Good.new (h : Good L) : Good L.new := ⟨h.wf.new, h.sane⟩

theorem Good.defined (h : Good L) (hk : Knows L m d.refs) :
    (defMean m (L.mean m) d).isSome ∧ (defKernel m (L.kernel m) d).isSome := by
  obtain ⟨a, ha, hk⟩ := hk
  obtain ⟨h1, h2⟩ := total h.wf.ms h.sane m a ha
  exact ⟨defMean_isSome d fun q hq => h1 q (hk q hq),
    defKernel_isSome d fun q hq r hr => h2 q (hk q hq) r (hk r hr)⟩

theorem Good.define (h : Good L) (hk : Knows L m d.refs) (res : PId) :
    aDefine m res d L = .ok () (L.push m res d) := by
  unfold aDefine
  rw [if_pos (h.defined hk)]

theorem Good.push (h : Good L) (hk : Knows L m d.refs) (hf : Fresh L m res) : Good (L.push m res d) := by
  obtain ⟨hm, hk'⟩ := h.defined hk
  obtain ⟨a, ha, hr⟩ := hk
  refine ⟨h.wf.push ha hf hr hm hk', fun m' a' u ha' hb => ?_⟩
  obtain ⟨b, hb', e⟩ := noNewBase_frameable.push L m res d m' a' ha' (by rw [hb]; simp)
  obtain ⟨h1, h2⟩ := h.sane m' b u hb' (by rw [e, hb])
  refine ⟨h1, fun p hp => ?_⟩
  obtain ⟨c, hc, hpc⟩ := h2 p hp
  obtain ⟨c', hc', hpc'⟩ := Knows.push (m' := m) (p := res) (d := d)
    (⟨c, hc, fun q hq => by rw [List.mem_singleton.1 hq]; exact hpc⟩ : Knows L u.prior [p])
  exact ⟨c', hc', hpc' p (List.mem_singleton.2 rfl)⟩

theorem Good.sum (h : Good L) (hk : Knows L m [p, q]) (hs : SamePrimary L p [q]) (res : PId) :
    aSum m res p q L = .ok () (L.push m res (.sum p q)) := by
  unfold aSum
  rw [bind_of_ok (aAssertSame_of hs)]
  exact h.define hk res

/-- `res` can be defined in `m` from `p` and `q`. -/
structure Ready (L : AWorld) (m : MId) (res p q : PId) : Prop where
  good : Good L
  fresh : Fresh L m res
  knows : Knows L m [p, q]
  same : SamePrimary L p [q]

theorem primary_push_fresh {r : PId} (hr : L.gps[r]? = some []) :
    (L.push m r d).gps[r]? = some [m] := by rw [push_gps, if_pos rfl, hr]; rfl

/-- The product of two processes in one measure. -/
theorem Ready.mul (h : Ready L m res p q) : aMul m res p q L = .ok () (L.mulPush m res p q) ∧
    Good (L.mulPush m res p q) := by
  have hres := h.fresh.lt
  have hne : ∀ k, res ≠ L.gps.length + k := fun k e => by omega
  have hne0 : res ≠ L.gps.length := fun e => by omega
  -- a
  let L2 := L.new.new
  have g2 : Good L2 := h.good.new.new
  have k2 : Knows L2 m [p, q] := h.knows
  have f2a : Fresh L2 m (L.gps.length + 1) := by
    have := fresh_new_self L.new m
    have e : L.new.gps.length = L.gps.length + 1 := by simp [AWorld.new]
    rw [e] at this; exact this
  have k2q : Knows L2 m (ProcDef.refs (.fmul q (.meanOf m p))) := k2.sub (by simp [ProcDef.refs])
  let L3 := L2.push m (L.gps.length + 1) (.fmul q (.meanOf m p))
  have g3 : Good L3 := g2.push k2q f2a
  have k3 : Knows L3 m ((L.gps.length + 1) :: [p, q]) := k2.push_self
  -- b
  let L4 := L3.new
  have g4 : Good L4 := g3.new
  have hlen3 : L3.gps.length = L.gps.length + 2 := by
    simp [L3, L2, push_gps_length, AWorld.new]
  have f4b : Fresh L4 m (L.gps.length + 2) := by
    have := fresh_new_self L3 m
    rw [hlen3] at this; exact this
  have k4p : Knows L4 m (ProcDef.refs (.fmul p (.meanOf m q))) := k3.sub (by simp [ProcDef.refs])
  let L5 := L4.push m (L.gps.length + 2) (.fmul p (.meanOf m q))
  have g5 : Good L5 := g4.push k4p f4b
  have k5 : Knows L5 m ((L.gps.length + 2) :: (L.gps.length + 1) :: [p, q]) := Knows.push_self k3
  -- t1
  have ga5 : L5.gps[L.gps.length + 1]? = some [m] := by
    show (L4.push m _ _).gps[_]? = _
    rw [push_gps, if_neg (by omega)]
    apply new_gps
    apply primary_push_fresh
    show ((L.gps ++ [[]]) ++ [[]])[L.gps.length + 1]? = _
    rw [List.getElem?_append_right (by simp)]
    simp
  have gb5 : L5.gps[L.gps.length + 2]? = some [m] := by
    apply primary_push_fresh
    show (L3.gps ++ [[]])[L.gps.length + 2]? = _
    rw [List.getElem?_append_right (by omega), hlen3]
    simp
  have s5 : SamePrimary L5 (L.gps.length + 1) [L.gps.length + 2] := by
    intro r hr
    rw [List.mem_singleton.1 hr]
    exact ⟨m, [], [], ga5, gb5⟩
  have f5t : Fresh L5 m L.gps.length := by
    refine fresh_push (fresh_new (fresh_push (fresh_new (fresh_new_self L m)) (.inr ?_))) (.inr ?_)
    · omega
    · omega
  have k5s : Knows L5 m [L.gps.length + 1, L.gps.length + 2] := k5.sub (by simp)
  let L6 := L5.push m L.gps.length (.sum (L.gps.length + 1) (L.gps.length + 2))
  have g6 : Good L6 := g5.push k5s f5t
  have k6 : Knows L6 m (L.gps.length :: (L.gps.length + 2) :: (L.gps.length + 1) :: [p, q]) := k5.push_self
  -- t2
  let L7 := L6.new
  have g7 : Good L7 := g6.new
  have hlen6 : L6.gps.length = L.gps.length + 3 := by
    simp only [L6, L5, L4, push_gps_length, AWorld.new, List.length_append, hlen3, List.length_singleton]
  have f7 : Fresh L7 m (L.gps.length + 3) := by
    have := fresh_new_self L6 m
    rw [hlen6] at this; exact this
  have k7 : Knows L7 m (ProcDef.refs (.rem p q)) := k6.sub (by simp [ProcDef.refs])
  let L8 := L7.push m (L.gps.length + 3) (.rem p q)
  have g8 : Good L8 := g7.push k7 f7
  have k8 : Knows L8 m ((L.gps.length + 3) :: L.gps.length :: (L.gps.length + 2) :: (L.gps.length + 1) :: [p, q]) :=
    Knows.push_self k6
  have k8s : Knows L8 m [L.gps.length, L.gps.length + 3] := k8.sub (by simp)
  have gt8 : L8.gps[L.gps.length]? = some [m] := by
    show (L7.push m _ _).gps[_]? = _
    rw [push_gps, if_neg (by omega)]
    apply new_gps
    apply primary_push_fresh
    show (L4.push m _ _).gps[_]? = _
    rw [push_gps, if_neg (by omega)]
    apply new_gps
    show (L2.push m _ _).gps[_]? = _
    rw [push_gps, if_neg (by omega)]
    apply new_gps
    show (L.gps ++ [[]])[L.gps.length]? = _
    simp
  have gr8 : L8.gps[L.gps.length + 3]? = some [m] := by
    apply primary_push_fresh
    show (L6.gps ++ [[]])[L.gps.length + 3]? = _
    rw [List.getElem?_append_right (by omega), hlen6]
    simp
  have s8 : SamePrimary L8 L.gps.length [L.gps.length + 3] := by
    intro r hr
    rw [List.mem_singleton.1 hr]
    exact ⟨m, [], [], gt8, gr8⟩
  have f8 : Fresh L8 m res := by
    refine fresh_push (fresh_new (fresh_push (fresh_push (fresh_new (fresh_push (fresh_new (fresh_new
      h.fresh)) (.inr ?_))) (.inr ?_)) (.inr ?_))) (.inr ?_)
    · exact hne 1
    · exact hne 2
    · exact hne0
    · exact hne 3
  have g9 : Good (L8.push m res (.sum L.gps.length (L.gps.length + 3))) := g8.push k8s f8
  refine ⟨?_, g9⟩
  unfold aMul
  rw [bind_of_ok (aAssertSame_of h.same)]
  rw [bind_of_ok (show aNewGP L = .ok L.gps.length L.new from rfl)]
  rw [bind_of_ok (show aNewGP L.new = .ok (L.gps.length + 1) L2 by
    simp [aNewGP, AWorld.new, L2])]
  rw [bind_of_ok (g2.define k2q _)]
  rw [bind_of_ok (show aNewGP L3 = .ok (L.gps.length + 2) L4 by
    show EStateM.Result.ok L3.gps.length L3.new = _
    rw [hlen3])]
  rw [bind_of_ok (g4.define k4p _)]
  rw [bind_of_ok (g5.sum k5s s5 _)]
  rw [bind_of_ok (show aNewGP L6 = .ok (L.gps.length + 3) L7 by
    show EStateM.Result.ok L6.gps.length L6.new = _
    rw [hlen6])]
  rw [bind_of_ok (g7.define k7 _)]
  exact g8.sum k8s s8 _

theorem forM_of {f : MId → AM Unit} {g : AWorld → MId → AWorld} {P : MId → AWorld → Prop}
    (hstep : ∀ m L, P m L → f m L = .ok () (g L m))
    (hkeep : ∀ m m' L, m' ≠ m → P m L → P m' L → P m' (g L m)) :
    ∀ (ms : List MId) (L : AWorld), ms.Nodup → (∀ m ∈ ms, P m L) → ms.forM f L = .ok () (ms.foldl g L)
  | [], L, _, _ => rfl
  | m :: ms, L, hn, h => by
    have hm := h m (List.mem_cons_self ..)
    rw [List.nodup_cons] at hn
    show (f m >>= fun _ => ms.forM f) L = _
    rw [bind_of_ok (hstep m L hm)]
    exact forM_of hstep hkeep ms _ hn.2 fun m' hm' =>
      hkeep m m' L (fun e => hn.1 (e ▸ hm')) hm (h m' (List.mem_cons_of_mem _ hm'))

theorem Ready.keep (h : Ready L m' res p q) (hk : Knows L m d.refs) (hf : Fresh L m res) (hne : m' ≠ m) :
    Ready (L.push m res d) m' res p q :=
  ⟨h.good.push hk hf, fresh_push h.fresh (.inl hne), h.knows.push, h.same.push⟩

theorem mulPush_frame : Frame m L (L.mulPush m res p q) :=
  frame_new.trans (frame_new.trans (frame_push.trans (frame_new.trans (frame_push.trans
    (frame_push.trans (frame_new.trans (frame_push.trans frame_push)))))))

theorem Ready.keepMul (h : Ready L m' res p q) (h' : Ready L m res p q) (hne : m' ≠ m) :
    Ready (L.mulPush m res p q) m' res p q :=
  ⟨h'.mul.2, mulPush_frame m' res hne h.fresh,
    h.knows.new.new.push.new.push.push.new.push.push, h.same.new.new.push.new.push.push.new.push.push⟩

theorem ready_new (h : Good L) (hs : SamePrimary L p [q]) (hm : m ∈ common L.new p [q]) :
    Ready L.new m L.gps.length p q := by
  refine ⟨h.new, fresh_new_self L m, ?_, hs.new⟩
  obtain ⟨a, ha, hk⟩ := mem_common h.new.wf hm
  exact ⟨a, ha, hk⟩

theorem SamePrimary.lt (h : SamePrimary L p [q]) : p < L.gps.length ∧ q < L.gps.length := by
  obtain ⟨m, l, l', h1, h2⟩ := h q (List.mem_singleton.2 rfl)
  exact ⟨(List.getElem?_eq_some_iff.1 h1).1, (List.getElem?_eq_some_iff.1 h2).1⟩

theorem Good.add (h : Good L) (hs : SamePrimary L p [q]) {ord : List MId}
    (ho : ord.Perm (common L.new p [q])) :
    aAdd p q ord L = .ok L.gps.length (L.new.pushAll ord L.gps.length (.sum p q)) := by
  have hlt := hs.new.lt
  unfold aAdd
  rw [bind_of_ok (show aNewGP L = .ok L.gps.length L.new from rfl)]
  rw [bind_of_ok (aIntersection_of hs.new hlt.1 (by simpa using hlt.2))]
  have : aIterate (common L.new p [q]) ord (fun m => aSum m L.gps.length p q) L.new =
      .ok () (L.new.pushAll ord L.gps.length (.sum p q)) := by
    unfold aIterate
    rw [if_pos (List.isPerm_iff.2 ho)]
    refine forM_of (P := fun m L' => Ready L' m L.gps.length p q)
      (g := fun L' m => L'.push m L.gps.length (.sum p q))
      (fun m L' hr => hr.good.sum hr.knows hr.same _)
      (fun m m' L' hne h1 h2 => h2.keep h1.knows h1.fresh hne) ord _
      (ho.nodup_iff.2 (common_nodup h.new.wf p [q])) fun m hm => ready_new h hs (ho.mem_iff.1 hm)
  rw [bind_of_ok this]
  rfl

theorem Good.gpMul (h : Good L) (hs : SamePrimary L p [q]) {ord : List MId}
    (ho : ord.Perm (common L.new p [q])) :
    aGpMul p q ord L = .ok L.gps.length
      (ord.foldl (fun L' m => L'.mulPush m L.gps.length p q) L.new) := by
  have hlt := hs.new.lt
  unfold aGpMul
  rw [bind_of_ok (show aNewGP L = .ok L.gps.length L.new from rfl)]
  rw [bind_of_ok (aIntersection_of hs.new hlt.1 (by simpa using hlt.2))]
  have : aIterate (common L.new p [q]) ord (fun m => aMul m L.gps.length p q) L.new =
      .ok () (ord.foldl (fun L' m => L'.mulPush m L.gps.length p q) L.new) := by
    unfold aIterate
    rw [if_pos (List.isPerm_iff.2 ho)]
    refine forM_of (P := fun m L' => Ready L' m L.gps.length p q)
      (g := fun L' m => L'.mulPush m L.gps.length p q)
      (fun m L' hr => hr.mul.1)
      (fun m m' L' hne h1 h2 => h2.keepMul h1 hne) ord _
      (ho.nodup_iff.2 (common_nodup h.new.wf p [q])) fun m hm => ready_new h hs (ho.mem_iff.1 hm)
  rw [bind_of_ok this]
  rfl

/-- A loop that defines `res` in several measures that know what the definition refers to. -/
theorem Good.defineAll (h : Good L) {ms : List MId} (hn : ms.Nodup)
    (hk : ∀ m ∈ ms, Knows L m d.refs ∧ Fresh L m res) :
    ms.forM (fun m => aDefine m res d) L = .ok () (L.pushAll ms res d) :=
  forM_of (P := fun m L' => Good L' ∧ Knows L' m d.refs ∧ Fresh L' m res)
    (g := fun L' m => L'.push m res d)
    (fun m L' hr => hr.1.define hr.2.1 _)
    (fun m m' L' hne h1 h2 => ⟨h1.1.push h1.2.1 h1.2.2, h2.2.1.push, fresh_push h2.2.2 (.inl hne)⟩) ms _ hn
    fun m hm => ⟨h, hk m hm⟩

theorem Good.cross (h : Good L) (hs : SamePrimary L p qs) (hp : p < L.gps.length)
    (hq : ∀ q ∈ qs, q < L.gps.length) {ord : List MId} (ho : ord.Perm (common L.new p qs)) :
    aCross (p :: qs) ord L = .ok L.gps.length (L.new.pushAll ord L.gps.length (.cross (p :: qs))) := by
  have hlen : L.new.gps.length = L.gps.length + 1 := by simp [AWorld.new]
  unfold aCross
  rw [bind_of_ok (show aNewGP L = .ok L.gps.length L.new from rfl)]
  simp only
  rw [bind_of_ok (aIntersection_of hs.new (by omega) (fun q h' => by have := hq q h'; omega))]
  have : aIterate (common L.new p qs) ord (fun m => aDefine m L.gps.length (.cross (p :: qs))) L.new =
      .ok () (L.new.pushAll ord L.gps.length (.cross (p :: qs))) := by
    unfold aIterate
    rw [if_pos (List.isPerm_iff.2 ho)]
    exact h.new.defineAll (ho.nodup_iff.2 (common_nodup h.new.wf p qs)) fun m hm =>
      ⟨mem_common h.new.wf (ho.mem_iff.1 hm), fresh_new_self L m⟩
  rw [bind_of_ok this]
  rfl

theorem Good.unary (h : Good L) {ms : List MId} (hp : L.gps[p]? = some ms) (hd : d.refs = [p]) :
    aUnary d p L = .ok L.gps.length (L.new.pushAll ms L.gps.length d) := by
  unfold aUnary
  rw [bind_of_ok (show aNewGP L = .ok L.gps.length L.new from rfl)]
  rw [bind_of_ok (show aMeasuresOf p L.new = .ok ms L.new by unfold aMeasuresOf; rw [new_gps hp])]
  have := h.new.defineAll (res := L.gps.length) (d := d) (h.wf.gps_nodup p ms hp) fun m hm => by
    obtain ⟨a, ha, hpa⟩ := h.wf.gps_mem p ms hp m hm
    exact ⟨⟨a, ha, fun q hq => by rw [hd] at hq; rw [List.mem_singleton.1 hq]; exact hpa⟩, fresh_new_self L m⟩
  rw [bind_of_ok this]
  rfl

end Good

/-- Success of an operation, in terms of the specification. -/
theorem Inv.ok {w : World} {L : AWorld} (h : Inv w L) {o : Op} (hr : o.raises w = none) :
    o.spec L = .ok () (o.specAfter L) := by
  rw [h.raises] at hr
  unfold Op.specAfter
  cases hs : o.spec L with
  | ok v L' => rfl
  | error e L' => rw [hs] at hr; cases hr

theorem forget_ok {α : Type} {c : AM α} {L L' : AWorld} {u : Unit} (h : (do let _ ← c : AM Unit) L = .ok u L') :
    ∃ v, c L = .ok v L' := by
  obtain ⟨v, L1, h1, h2⟩ := bind_ok h
  obtain ⟨_, rfl⟩ := pure_ok h2
  exact ⟨v, h1⟩

/-! ## Lookups after a definition -/

section After
variable {L : AWorld} {m : MId} {p : PId} {d : ProcDef} {a : AMeas}

theorem push_base (st : Stable L) (ha : L.ms[m]? = some a) (hp : p ∉ a.ps) :
    (L.push m p d).baseK { a with defs := (p, d) :: a.defs } = L.baseK a ∧
    (L.push m p d).baseM { a with defs := (p, d) :: a.defs } = L.baseM a := by
  have st' := push_stable (d := d) st ha hp
  have hpre : ∀ k : MId, k < m → (L.push m p d).ms[k]? = L.ms[k]? := fun k hk => by
    rw [push_ms, if_neg (Nat.ne_of_gt hk)]
  constructor
  · funext i j
    unfold AWorld.baseK
    cases hb : a.base with
    | none => rfl
    | some u =>
      have : (L.push m p d).kernel u.prior = L.kernel u.prior := by
        funext i j; exact kernel_prefix st st' hpre _ (st.base_lt m a ha u hb) i j
      simp only [this]
  · funext i
    unfold AWorld.baseM
    cases hb : a.base with
    | none => rfl
    | some u =>
      have h1 : (L.push m p d).kernel u.prior = L.kernel u.prior := by
        funext i j; exact kernel_prefix st st' hpre _ (st.base_lt m a ha u hb) i j
      have h2 : (L.push m p d).mean u.prior = L.mean u.prior := by
        funext i; exact mean_prefix st st' hpre _ (st.base_lt m a ha u hb) i
      simp only [h1, h2]

/-- Kernels of a measure after a definition. -/
theorem push_kernel_at (st : Stable L) (ha : L.ms[m]? = some a) (hp : p ∉ a.ps) (i j : PId) :
    (L.push m p d).kernel m i j =
      if i = p then
        if j = p then defKernel m (L.kernel m) d
        else if j ∈ a.ps then defLeft m (L.kernel m) j d
        else none
      else if j = p then
        if i ∈ a.ps then defRight m (L.kernel m) i d else none
      else L.kernel m i j := by
  have st' := push_stable (d := d) st ha hp
  have ha' : (L.push m p d).ms[m]? = some { a with defs := (p, d) :: a.defs } := by
    rw [push_ms, if_pos rfl, ha]; rfl
  have hk : L.kernel m = lookKDefs m (L.baseK a) a.basePs a.defs := by
    funext i j; exact kernel_eq st.base_lt ha i j
  rw [kernel_eq st'.base_lt ha', (push_base st ha hp).1, hk]
  rfl

/-- Means of a measure after a definition. -/
theorem push_mean_at (st : Stable L) (ha : L.ms[m]? = some a) (hp : p ∉ a.ps) (i : PId) :
    (L.push m p d).mean m i = if i = p then defMean m (L.mean m) d else L.mean m i := by
  have st' := push_stable (d := d) st ha hp
  have ha' : (L.push m p d).ms[m]? = some { a with defs := (p, d) :: a.defs } := by
    rw [push_ms, if_pos rfl, ha]; rfl
  have hk : L.mean m = lookMDefs m (L.baseM a) a.basePs a.defs := by
    funext i; exact mean_eq st.base_lt ha i
  rw [mean_eq st'.base_lt ha', (push_base st ha hp).2, hk]
  rfl

end After

end Stheno
