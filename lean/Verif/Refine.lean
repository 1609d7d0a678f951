import Verif.Mono

/-!
# Refinement: operations

Every operation of the graph machine does what the specification machine says, in every state.
-/

namespace Stheno

/-- The two dictionaries of names are inverse to each other. -/
def NamesOK (a : AMeas) : Prop :=
  a.namesByGp = a.gpsByName.map Prod.swap ∧ (a.gpsByName.map (·.1)).Nodup ∧
    (a.gpsByName.map (·.2)).Nodup

/-- Well-formed states of the specification machine. -/
structure Wf (L : AWorld) : Prop where
  ms : WfMs L
  mem_gps : ∀ (m : MId) (a : AMeas), L.ms[m]? = some a → ∀ p ∈ a.ps,
    ∃ l, L.gps[p]? = some l ∧ m ∈ l
  gps_mem : ∀ (p : PId) (l : List MId), L.gps[p]? = some l → ∀ m ∈ l,
    ∃ a, L.ms[m]? = some a ∧ p ∈ a.ps
  gps_nodup : ∀ (p : PId) (l : List MId), L.gps[p]? = some l → l.Nodup
  default : ∀ m, L.default = some m → m < L.ms.length
  prevDefault : ∀ (m : MId) (a : AMeas), L.ms[m]? = some a → ∀ m', a.prevDefault = some m' →
    m' < L.ms.length
  names : ∀ (m : MId) (a : AMeas), L.ms[m]? = some a → NamesOK a

theorem kernel_congr {L L' : AWorld} (h : L'.ms = L.ms) : L'.kernel = L.kernel := by
  funext m i j; simp only [AWorld.kernel, h]

theorem mean_congr {L L' : AWorld} (h : L'.ms = L.ms) : L'.mean = L.mean := by
  funext m i; simp only [AWorld.mean, h]

theorem RelM.congr {L L' : AWorld} (h : L'.ms = L.ms) {m : MId} {s : MState} {a : AMeas}
    (hr : RelM L m s a) : RelM L' m s a :=
  { hr with
    kstore := by rw [kernel_congr h]; exact hr.kstore
    mstore := by rw [mean_congr h]; exact hr.mstore }

theorem WfMs.congr {L L' : AWorld} (h : L'.ms = L.ms) (hw : WfMs L) : WfMs L' := by
  intro m a ha
  have h0 := hw m a (by rw [← h]; exact ha)
  exact { h0 with
    base_sub := by rw [h]; exact h0.base_sub
    def_ok := by rw [kernel_congr h, mean_congr h]; exact h0.def_ok }

/-! ## One definition -/

section Push
variable {L : AWorld} {m : MId} {p : PId} {d : ProcDef} {a : AMeas} {l : List MId}

theorem push_ms (m' : MId) : (L.push m p d).ms[m']? =
    if m = m' then L.ms[m']?.map (fun a => { a with defs := (p, d) :: a.defs }) else L.ms[m']? := by
  simp only [AWorld.push, List.getElem?_modify]
  split <;> simp

theorem push_gps (p' : PId) : (L.push m p d).gps[p']? =
    if p = p' then L.gps[p']?.map (· ++ [m]) else L.gps[p']? := by
  simp only [AWorld.push, List.getElem?_modify]
  split <;> simp

theorem push_ext : Ext L (L.push m p d) := by
  refine ⟨fun m' a ha => ?_, fun p' l hl => ?_⟩
  · rw [push_ms]
    split
    · exact ⟨{ a with defs := (p, d) :: a.defs }, by rw [ha]; rfl, rfl, rfl, [(p, d)], rfl⟩
    · exact ⟨a, ha, rfl, rfl, [], rfl⟩
  · rw [push_gps]
    split
    · exact ⟨[m], by rw [hl]; rfl⟩
    · exact ⟨[], by simpa using hl⟩

theorem push_stable (st : Stable L) (ha : L.ms[m]? = some a) (hp : p ∉ a.ps) :
    Stable (L.push m p d) := by
  refine ⟨fun m' a' ha' => ?_, fun m' a' ha' => ?_⟩
  · rw [push_ms] at ha'
    split at ha'
    · next h =>
      subst h
      rw [ha] at ha'; simp only [Option.map_some, Option.some.injEq] at ha'; subst ha'
      exact st.base_lt m a ha
    · exact st.base_lt m' a' ha'
  · rw [push_ms] at ha'
    split at ha'
    · next h =>
      subst h
      rw [ha] at ha'; simp only [Option.map_some, Option.some.injEq] at ha'; subst ha'
      simp only [AMeas.ps, knownOf_cons, List.nodup_append, List.nodup_cons, List.not_mem_nil,
        not_false_eq_true, List.nodup_nil, and_self, true_and, List.mem_singleton]
      exact ⟨st.nodup m a ha, fun x hx y hy => by rintro rfl; subst hy; exact hp hx⟩
    · exact st.nodup m' a' ha'

theorem push_mean (st : Stable L) (ha : L.ms[m]? = some a) (hp : p ∉ a.ps) :
    OLe (defMean m (L.mean m) d) ((L.push m p d).mean m p) := by
  have st' := push_stable (d := d) st ha hp
  have ha' : (L.push m p d).ms[m]? = some { a with defs := (p, d) :: a.defs } := by
    rw [push_ms, if_pos rfl, ha]; rfl
  rw [mean_eq st'.base_lt ha']
  simp only [lookMDefs, if_true]
  refine defMean_mono (fun i => ?_) d
  rw [mean_eq st.base_lt ha]
  refine lookMDefs_mono (fun i => ?_) _ i
  unfold AWorld.baseM
  cases hb : a.base with
  | none => exact OLe.rfl
  | some u => exact obsMean_mono (push_ext.mean st st' _) (push_ext.kernel st st' _) _ _

theorem push_kernel (st : Stable L) (ha : L.ms[m]? = some a) (hp : p ∉ a.ps) :
    OLe (defKernel m (L.kernel m) d) ((L.push m p d).kernel m p p) := by
  have st' := push_stable (d := d) st ha hp
  have ha' : (L.push m p d).ms[m]? = some { a with defs := (p, d) :: a.defs } := by
    rw [push_ms, if_pos rfl, ha]; rfl
  rw [kernel_eq st'.base_lt ha']
  simp only [lookKDefs, if_true]
  refine defKernel_mono (fun i j => ?_) d
  rw [kernel_eq st.base_lt ha]
  refine lookKDefs_mono (fun i j => ?_) _ i j
  unfold AWorld.baseK
  cases hb : a.base with
  | none => exact OLe.rfl
  | some u => exact obsKernel_mono (push_ext.kernel st st' _) _ _ _

/-- `p` can be attached to `m`. -/
def Fresh (L : AWorld) (m : MId) (p : PId) : Prop := ∃ l, L.gps[p]? = some l ∧ m ∉ l

theorem Fresh.not_mem (wf : Wf L) (h : Fresh L m p) (ha : L.ms[m]? = some a) : p ∉ a.ps := by
  intro hc
  obtain ⟨l, hl, hm⟩ := h
  obtain ⟨l', hl', hm'⟩ := wf.mem_gps m a ha p hc
  rw [hl] at hl'; cases hl'
  exact hm hm'

theorem Wf.push (wf : Wf L) (ha : L.ms[m]? = some a) (hf : Fresh L m p)
    (hrefs : ∀ q ∈ d.refs, q ∈ a.ps) (hm : (defMean m (L.mean m) d).isSome)
    (hk : (defKernel m (L.kernel m) d).isSome) : Wf (L.push m p d) := by
  have st := wf.ms.stable
  have hp := hf.not_mem wf ha
  obtain ⟨l, hl, hml⟩ := hf
  have st' := push_stable (d := d) st ha hp
  have ext : Ext L (L.push m p d) := push_ext
  have ha' : (L.push m p d).ms[m]? = some { a with defs := (p, d) :: a.defs } := by
    rw [push_ms, if_pos rfl, ha]; rfl
  have hlen : (L.push m p d).ms.length = L.ms.length := by simp [AWorld.push]
  refine ⟨?_, ?_, ?_, ?_, ?_, ?_, ?_⟩
  · intro m' a' h'
    have hsub : ∀ (b0 : AMeas), WfM L m' b0 → b0.base = a'.base → b0.basePs = a'.basePs →
        ∀ u, a'.base = some u →
        ∃ b, (L.push m p d).ms[u.prior]? = some b ∧ ∀ p ∈ a'.basePs, p ∈ b.ps := by
      intro b0 w0 hb hbp u hu
      obtain ⟨b, hb1, hb2⟩ := w0.base_sub u (hb.trans hu)
      obtain ⟨b', hb', _⟩ := ext.meas _ b hb1
      exact ⟨b', hb', fun q hq => ext.known hb1 hb' (hb2 q (by rw [hbp]; exact hq))⟩
    by_cases hmm : m = m'
    · subst hmm
      rw [ha'] at h'; cases h'
      have w0 := wf.ms m a ha
      refine ⟨w0.base_lt, w0.base_none, hsub a w0 rfl rfl, st'.nodup m _ ha', ⟨hrefs, w0.inScope⟩,
        ?_⟩
      intro e he
      rcases List.mem_cons.1 he with rfl | he
      · exact ⟨(push_mean st ha hp).isSome hm, (push_kernel st ha hp).isSome hk⟩
      · obtain ⟨h1, h2⟩ := w0.def_ok e he
        exact ⟨(ext.mean st st' _ _).isSome h1, (ext.kernel st st' _ _ _).isSome h2⟩
    · have h0 : L.ms[m']? = some a' := by rw [push_ms, if_neg hmm] at h'; exact h'
      have w0 := wf.ms m' a' h0
      refine ⟨w0.base_lt, w0.base_none, hsub a' w0 rfl rfl, w0.nodup, w0.inScope, fun e he => ?_⟩
      obtain ⟨h1, h2⟩ := w0.def_ok e he
      exact ⟨(ext.mean st st' _ _).isSome h1, (ext.kernel st st' _ _ _).isSome h2⟩
  · intro m' a' h' q hq
    rw [push_ms] at h'
    by_cases hmm : m = m'
    · subst hmm
      rw [if_pos rfl, ha] at h'; simp only [Option.map_some, Option.some.injEq] at h'; subst h'
      simp only [AMeas.ps, knownOf_cons, List.mem_append, List.mem_singleton] at hq
      rcases hq with hq | rfl
      · obtain ⟨l', hl', hm'⟩ := wf.mem_gps m a ha q hq
        obtain ⟨l'', h''⟩ := ext.gps q l' hl'
        exact ⟨_, h'', by simp [hm']⟩
      · exact ⟨l ++ [m], by rw [push_gps, if_pos rfl, hl]; rfl, by simp⟩
    · rw [if_neg hmm] at h'
      obtain ⟨l', hl', hm'⟩ := wf.mem_gps m' a' h' q hq
      obtain ⟨l'', h''⟩ := ext.gps q l' hl'
      exact ⟨_, h'', by simp [hm']⟩
  · intro q l' hl' m' hm'
    have old : ∀ l0, L.gps[q]? = some l0 → m' ∈ l0 →
        ∃ b, (L.push m p d).ms[m']? = some b ∧ q ∈ b.ps := by
      intro l0 h0 hm0
      obtain ⟨b, hb, hqb⟩ := wf.gps_mem q l0 h0 m' hm0
      obtain ⟨b', hb', _⟩ := ext.meas m' b hb
      exact ⟨b', hb', ext.known hb hb' hqb⟩
    rw [push_gps] at hl'
    by_cases hpq : p = q
    · subst hpq
      rw [if_pos rfl, hl] at hl'; simp only [Option.map_some, Option.some.injEq] at hl'; subst hl'
      rcases List.mem_append.1 hm' with h | h
      · exact old l hl h
      · rw [List.mem_singleton] at h; subst h
        exact ⟨_, ha', by simp [AMeas.ps, knownOf_cons]⟩
    · rw [if_neg hpq] at hl'
      exact old l' hl' hm'
  · intro q l' hl'
    rw [push_gps] at hl'
    by_cases hpq : p = q
    · subst hpq
      rw [if_pos rfl, hl] at hl'; simp only [Option.map_some, Option.some.injEq] at hl'; subst hl'
      rw [List.nodup_append]
      exact ⟨wf.gps_nodup p l hl, by simp, fun x hx y hy => by
        rw [List.mem_singleton] at hy; subst hy; rintro rfl; exact hml hx⟩
    · rw [if_neg hpq] at hl'
      exact wf.gps_nodup q l' hl'
  · intro m' h'
    rw [hlen]; exact wf.default m' h'
  · intro m' a' h' m'' hm''
    rw [hlen]
    rw [push_ms] at h'
    split at h'
    · next h =>
      subst h
      rw [ha] at h'; simp only [Option.map_some, Option.some.injEq] at h'; subst h'
      exact wf.prevDefault m a ha m'' hm''
    · exact wf.prevDefault m' a' h' m'' hm''
  · intro m' a' h'
    rw [push_ms] at h'
    split at h'
    · next h =>
      subst h
      rw [ha] at h'; simp only [Option.map_some, Option.some.injEq] at h'; subst h'
      exact wf.names m a ha
    · exact wf.names m' a' h'

end Push

/-- The effect of `_update` on a measure object. -/
def MState.upd (s : MState) (p : PId) (mean : MExpr) (kernel : KExpr) (left : LRule)
    (right : RRule) : MState :=
  { s with
    means := s.means.set p mean
    kernels := ((s.kernels.set p p kernel).addLeftRule p s.pids left).addRightRule p s.pids right
    ps := s.ps ++ [p]
    pids := s.pids ++ [p] }

theorem update_eq (m : MId) (p : PId) (mean : MExpr) (kernel : KExpr) (left : LRule)
    (right : Option RRule) (w : World) :
    update m p mean kernel left right w =
      .ok () { w with
        ms := w.ms.modify m (fun s => s.upd p mean kernel left (right.getD (.rev p)))
        gps := w.gps.modify p (· ++ [m]) } := by
  cases right <;>
  · simp only [update, addP, modMeas, Bind.bind, EStateM.bind, modify, modifyGet,
      MonadStateOf.modifyGet, EStateM.modifyGet, List.modify_modify_eq]
    rfl

theorem find_setK (s : LazyMat KExpr URule LRule RRule) (i j i' j' : PId) (k : KExpr) :
    (s.set i j k).find i' j' = if i' = i ∧ j' = j then some k else s.find i' j' := by
  by_cases hij : i' = i ∧ j' = j
  · obtain ⟨rfl, rfl⟩ := hij; simp [LazyMat.set, LazyMat.find]
  · have hb : ((i', j') == (i, j)) = false := by simpa using hij
    simp [LazyMat.set, LazyMat.find, List.lookup, hb, hij]

theorem find_setM (s : LazyVec MExpr URule) (i i' : PId) (k : MExpr) :
    (s.set i k).find i' = if i' = i then some k else s.find i' := by
  by_cases hij : i' = i
  · subst hij; simp [LazyVec.set, LazyVec.find]
  · have hb : (i' == i) = false := by simpa using hij
    simp [LazyVec.set, LazyVec.find, List.lookup, hb, hij]

/-- `_update` is a definition. -/
theorem Rel.upd {w : World} {L : AWorld} (h : Rel w L) (wf : Wf L) {m : MId} {p : PId} {d : ProcDef}
    {a : AMeas} (ha : L.ms[m]? = some a) (hf : Fresh L m p) {mean : MExpr} {kernel : KExpr}
    (hm : defMean m (L.mean m) d = some mean) (hk : defKernel m (L.kernel m) d = some kernel)
    {right : Option RRule} (hr : right.getD (.rev p) = d.rrule p) :
    ∃ w', update m p mean kernel (d.lrule m) right w = .ok () w' ∧ Rel w' (L.push m p d) := by
  refine ⟨_, update_eq .., ?_⟩
  have st := wf.ms.stable
  have hp := hf.not_mem wf ha
  have st' := push_stable (d := d) st ha hp
  have ext : Ext L (L.push m p d) := push_ext
  refine ⟨by simp [h.len, AWorld.push], ?_, by simp [AWorld.push, h.gps], h.default⟩
  intro m' s' a' hs' ha'
  simp only [List.getElem?_modify] at hs'
  rw [push_ms] at ha'
  cases hs : w.ms[m']? with
  | none => simp [hs] at hs'
  | some s =>
    by_cases hmm : m = m'
    · subst hmm
      rw [if_pos rfl, ha] at ha'
      simp only [Option.map_some, Option.some.injEq] at ha'; subst ha'
      simp only [hs, if_true, Option.map_eq_map, Option.map_some, Option.some.injEq] at hs'; subst hs'
      have hr0 := h.meas m s a hs ha
      constructor
      · simp [MState.upd, hr0.ps, AMeas.ps, knownOf_cons]
      · simp [MState.upd, hr0.pids, AMeas.ps, knownOf_cons]
      · exact hr0.krules
      · exact hr0.mrules
      · simp [MState.upd, LazyMat.addLeftRule, LazyMat.addRightRule, LazyMat.set, hr0.left,
          hr0.pids, leftRulesOf, AMeas.ps]
      · simp [MState.upd, LazyMat.addLeftRule, LazyMat.addRightRule, LazyMat.set, hr0.right,
          hr0.pids, rightRulesOf, AMeas.ps, hr]
      · intro i j k hfk
        change (s.kernels.set p p kernel).find i j = some k at hfk
        rw [find_setK] at hfk
        split at hfk
        · next hij =>
          obtain ⟨rfl, rfl⟩ := hij
          rw [← hfk]
          exact push_kernel st ha hp _ hk
        · exact ext.kernel st st' _ _ _ _ (hr0.kstore i j k hfk)
      · intro i k hfk
        change (s.means.set p mean).find i = some k at hfk
        rw [find_setM] at hfk
        split at hfk
        · next hij =>
          subst hij
          rw [← hfk]
          exact push_mean st ha hp _ hm
        · exact ext.mean st st' _ _ _ (hr0.mstore i k hfk)
      · intro e he
        change ((s.kernels.set p p kernel).find e.1 e.1).isSome
        rw [find_setK]
        split
        · rfl
        · next hne =>
          rcases List.mem_cons.1 he with rfl | he
          · simp at hne
          · exact hr0.kdiag e he
      · intro e he
        change ((s.means.set p mean).find e.1).isSome
        rw [find_setM]
        split
        · rfl
        · next hne =>
          rcases List.mem_cons.1 he with rfl | he
          · simp at hne
          · exact hr0.mdiag e he
      · exact hr0.gpsByName
      · exact hr0.namesByGp
      · exact hr0.prevDefault
    · rw [if_neg hmm] at ha'
      simp only [hs, hmm, if_false, Option.map_eq_map, Option.map_some, Option.some.injEq] at hs'
      subst hs'
      have hr0 := h.meas m' s a' hs ha'
      exact { hr0 with
        kstore := fun i j k hf => ext.kernel st st' _ _ _ _ (hr0.kstore i j k hf)
        mstore := fun i k hf => ext.mean st st' _ _ _ (hr0.mstore i k hf) }

end Stheno
