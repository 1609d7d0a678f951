import Verif.RefineLook
import Verif.SpecOps

/-!
# The specification machine: extension of states

States only ever grow, and means and kernels that exist do not change when they grow.
-/

namespace Stheno

/-- `b` is at least as defined as `a`. -/
def OLe {α : Type} (a b : Option α) : Prop := ∀ v, a = some v → b = some v

theorem OLe.rfl {α : Type} {a : Option α} : OLe a a := fun _ h => h

theorem OLe.bind {α β : Type} {a b : Option α} {f g : α → Option β} (h : OLe a b)
    (hf : ∀ v, OLe (f v) (g v)) : OLe (a >>= f) (b >>= g) := by
  intro v hv
  cases ha : a with
  | none => rw [ha] at hv; simp at hv
  | some x =>
    rw [ha] at hv
    rw [h x ha]
    exact hf x v hv

theorem OLe.isSome {α : Type} {a b : Option α} (h : OLe a b) (ha : a.isSome) : b.isSome := by
  obtain ⟨v, hv⟩ := Option.isSome_iff_exists.1 ha
  rw [h v hv]; rfl

theorem runL_mono {lk lk' : PId → PId → Option KExpr} (h : ∀ i j, OLe (lk i j) (lk' i j))
    (j : PId) (l : LRule) : OLe (runL lk j l) (runL lk' j l) := by
  induction l with
  | zero | const | fn | cross => exact OLe.rfl
  | map2 f a b iha ihb => exact iha.bind fun _ => ihb.bind fun _ => OLe.rfl
  | look p => exact h _ _
  | lookR p => exact h _ _
  | add a b iha ihb => exact iha.bind fun _ => ihb.bind fun _ => OLe.rfl
  | scale _ _ ih => exact ih.bind fun _ => OLe.rfl
  | tmul _ _ _ ih => exact ih.bind fun _ => OLe.rfl
  | pre _ _ _ ih => exact ih.bind fun _ => OLe.rfl
  | diff _ _ _ ih => exact ih.bind fun _ => OLe.rfl

theorem defMean_mono {m : MId} {lm lm' : PId → Option MExpr} (h : ∀ i, OLe (lm i) (lm' i))
    (d : ProcDef) : OLe (defMean m lm d) (defMean m lm' d) := by
  cases d with
  | indep | cross | custom => exact OLe.rfl
  | copy => exact h _
  | sum p q => exact (h p).bind fun _ => (h q).bind fun _ => OLe.rfl
  | rem p q => exact (h p).bind fun _ => (h q).bind fun _ => OLe.rfl
  | _ => exact (h _).bind fun _ => OLe.rfl

theorem defKernel_mono {m : MId} {lk lk' : PId → PId → Option KExpr}
    (h : ∀ i j, OLe (lk i j) (lk' i j)) (d : ProcDef) :
    OLe (defKernel m lk d) (defKernel m lk' d) := by
  cases d with
  | indep | cross | custom => exact OLe.rfl
  | copy => exact h _ _
  | addFn => exact h _ _
  | sum p q | rem p q =>
    exact (h _ _).bind fun _ => (h _ _).bind fun _ => (h _ _).bind fun _ => (h _ _).bind fun _ =>
      OLe.rfl
  | _ => exact (h _ _).bind fun _ => OLe.rfl

theorem defLeft_mono {m : MId} {lk lk' : PId → PId → Option KExpr}
    (h : ∀ i j, OLe (lk i j) (lk' i j)) (j : PId) (d : ProcDef) :
    OLe (defLeft m lk j d) (defLeft m lk' j d) := by
  rw [← runL_lrule, ← runL_lrule]
  exact runL_mono h j _

theorem defRight_mono {m : MId} {lk lk' : PId → PId → Option KExpr}
    (h : ∀ i j, OLe (lk i j) (lk' i j)) (i : PId) (d : ProcDef) :
    OLe (defRight m lk i d) (defRight m lk' i d) := by
  cases d with
  | indep | rem => exact OLe.rfl
  | copy => exact h _ _
  | _ => exact (defLeft_mono h i _).bind fun _ => OLe.rfl

theorem lookKDefs_mono {m : MId} {base base' : PId → PId → Option KExpr} {bp : List PId}
    (h : ∀ i j, OLe (base i j) (base' i j)) (es : List (PId × ProcDef)) :
    ∀ i j, OLe (lookKDefs m base bp es i j) (lookKDefs m base' bp es i j) := by
  induction es with
  | nil =>
    intro i j
    simp only [lookKDefs]
    split
    · exact h i j
    · exact OLe.rfl
  | cons e es ih =>
    obtain ⟨p, d⟩ := e
    intro i j
    simp only [lookKDefs]
    split
    · split
      · exact defKernel_mono ih d
      · split
        · exact defLeft_mono ih j d
        · exact OLe.rfl
    · split
      · split
        · exact defRight_mono ih i d
        · exact OLe.rfl
      · exact ih i j

theorem lookMDefs_mono {m : MId} {base base' : PId → Option MExpr} {bp : List PId}
    (h : ∀ i, OLe (base i) (base' i)) (es : List (PId × ProcDef)) :
    ∀ i, OLe (lookMDefs m base bp es i) (lookMDefs m base' bp es i) := by
  induction es with
  | nil =>
    intro i
    simp only [lookMDefs]
    split
    · exact h i
    · exact OLe.rfl
  | cons e es ih =>
    obtain ⟨p, d⟩ := e
    intro i
    simp only [lookMDefs]
    split
    · exact defMean_mono ih d
    · exact ih i

theorem obsKernel_mono {lk lk' : PId → PId → Option KExpr} (h : ∀ i j, OLe (lk i j) (lk' i j))
    (o : Obs) (i j : PId) : OLe (obsKernel lk none o i j) (obsKernel lk' none o i j) := by
  cases o with
  | exact p x noise y =>
    simp only [obsKernel]
    split
    · exact h _ _
    · exact (h _ _).bind fun _ => (h _ _).bind fun _ => (h _ _).bind fun _ => (h _ _).bind fun _ =>
        OLe.rfl
  | pseudo pu p o =>
    simp only [obsKernel]
    refine (h _ _).bind fun _ => (h _ _).bind fun _ => (h _ _).bind fun _ => (h _ _).bind fun _ =>
      (h _ _).bind fun _ => ?_
    split
    · exact (h _ _).bind fun _ => OLe.rfl
    · exact OLe.rfl

theorem obsMean_mono {lm lm' : PId → Option MExpr} {lk lk' : PId → PId → Option KExpr}
    (hm : ∀ i, OLe (lm i) (lm' i)) (h : ∀ i j, OLe (lk i j) (lk' i j))
    (o : Obs) (i : PId) : OLe (obsMean lm lk none o i) (obsMean lm' lk' none o i) := by
  cases o with
  | exact p x noise y =>
    simp only [obsMean]
    split
    · exact hm _
    · exact (hm _).bind fun _ => (hm _).bind fun _ => (h _ _).bind fun _ => (h _ _).bind fun _ =>
        OLe.rfl
  | pseudo pu p o =>
    simp only [obsMean]
    refine (hm _).bind fun _ => (hm _).bind fun _ => (h _ _).bind fun _ => (h _ _).bind fun _ =>
      (h _ _).bind fun _ => ?_
    split
    · exact (h _ _).bind fun _ => (hm _).bind fun _ => OLe.rfl
    · exact OLe.rfl

/-- `L'` extends `L`: no measure, process, definition or membership is lost or changed. -/
structure Ext (L L' : AWorld) : Prop where
  meas : ∀ (m : MId) (a : AMeas), L.ms[m]? = some a → ∃ a', L'.ms[m]? = some a' ∧
    a'.base = a.base ∧ a'.basePs = a.basePs ∧ ∃ new, a'.defs = new ++ a.defs
  gps : ∀ (p : PId) (l : List MId), L.gps[p]? = some l → ∃ l', L'.gps[p]? = some (l ++ l')

theorem Ext.refl (L : AWorld) : Ext L L :=
  ⟨fun _ a h => ⟨a, h, rfl, rfl, [], rfl⟩, fun _ l h => ⟨[], by simpa using h⟩⟩

theorem Ext.trans {L1 L2 L3 : AWorld} (h : Ext L1 L2) (h' : Ext L2 L3) : Ext L1 L3 := by
  refine ⟨fun m a ha => ?_, fun p l hl => ?_⟩
  · obtain ⟨a2, h2, b2, p2, n2, d2⟩ := h.meas m a ha
    obtain ⟨a3, h3, b3, p3, n3, d3⟩ := h'.meas m a2 h2
    exact ⟨a3, h3, b3.trans b2, p3.trans p2, n3 ++ n2, by rw [d3, d2, List.append_assoc]⟩
  · obtain ⟨l2, h2⟩ := h.gps p l hl
    obtain ⟨l3, h3⟩ := h'.gps p _ h2
    exact ⟨l2 ++ l3, by rw [h3, List.append_assoc]⟩

theorem Ext.ms_len {L L' : AWorld} (h : Ext L L') {m : MId} (hm : m < L.ms.length) :
    m < L'.ms.length := by
  obtain ⟨a', ha', _⟩ := h.meas m _ (List.getElem?_eq_getElem hm)
  exact (List.getElem?_eq_some_iff.1 ha').1

theorem Ext.gps_len {L L' : AWorld} (h : Ext L L') {p : PId} (hm : p < L.gps.length) :
    p < L'.gps.length := by
  obtain ⟨a', ha'⟩ := h.gps p _ (List.getElem?_eq_getElem hm)
  exact (List.getElem?_eq_some_iff.1 ha').1

theorem Ext.known {L L' : AWorld} (h : Ext L L') {m : MId} {a a' : AMeas}
    (ha : L.ms[m]? = some a) (ha' : L'.ms[m]? = some a') {p : PId} (hp : p ∈ a.ps) : p ∈ a'.ps := by
  obtain ⟨b, hb, _, hbp, new, hd⟩ := h.meas m a ha
  rw [ha'] at hb; cases hb
  simp only [AMeas.ps, mem_knownOf, hbp, hd, List.map_append, List.mem_append] at hp ⊢
  tauto

/-- Bases point to earlier measures, and processes of a measure are distinct: what is needed for the
meaning of definitions to be stable. -/
structure Stable (L : AWorld) : Prop where
  base_lt : ∀ (m : MId) (a : AMeas), L.ms[m]? = some a → ∀ u, a.base = some u → u.prior < m
  nodup : ∀ (m : MId) (a : AMeas), L.ms[m]? = some a → a.ps.Nodup

theorem WfMs.stable {L : AWorld} (h : WfMs L) : Stable L :=
  ⟨fun m a ha => (h m a ha).base_lt, fun m a ha => (h m a ha).nodup⟩

theorem Ext.kernel {L L' : AWorld} (h : Ext L L') (st : Stable L) (st' : Stable L') :
    ∀ (m : MId) i j, OLe (L.kernel m i j) (L'.kernel m i j) := by
  intro m
  induction m using Nat.strong_induction_on with
  | _ m ih =>
    intro i j k hk
    cases ha : L.ms[m]? with
    | none => simp [AWorld.kernel, specKAux, ha] at hk
    | some a =>
      obtain ⟨a', ha', hb, hbp, new, hd⟩ := h.meas m a ha
      rw [kernel_eq st.base_lt ha] at hk
      rw [kernel_eq st'.base_lt ha', hd, hbp]
      have hkn := lookKDefs_known hk
      have hnd := st'.nodup m a' ha'
      simp only [AMeas.ps, hbp, hd] at hnd
      rw [lookKDefs_append (not_mem_new hnd hkn.1) (not_mem_new hnd hkn.2)]
      refine lookKDefs_mono (fun i j => ?_) _ i j k hk
      unfold AWorld.baseK
      rw [hb]
      cases hbase : a.base with
      | none => exact OLe.rfl
      | some u => exact obsKernel_mono (ih u.prior (st.base_lt m a ha u hbase)) _ _ _

theorem Ext.mean {L L' : AWorld} (h : Ext L L') (st : Stable L) (st' : Stable L') :
    ∀ (m : MId) i, OLe (L.mean m i) (L'.mean m i) := by
  intro m
  induction m using Nat.strong_induction_on with
  | _ m ih =>
    intro i k hk
    cases ha : L.ms[m]? with
    | none => simp [AWorld.mean, specMAux, ha] at hk
    | some a =>
      obtain ⟨a', ha', hb, hbp, new, hd⟩ := h.meas m a ha
      rw [mean_eq st.base_lt ha] at hk
      rw [mean_eq st'.base_lt ha', hd, hbp]
      have hkn := lookMDefs_known hk
      have hnd := st'.nodup m a' ha'
      simp only [AMeas.ps, hbp, hd] at hnd
      rw [lookMDefs_append (not_mem_new hnd hkn)]
      refine lookMDefs_mono (fun i => ?_) _ i k hk
      unfold AWorld.baseM
      rw [hb]
      cases hbase : a.base with
      | none => exact OLe.rfl
      | some u =>
        exact obsMean_mono (ih u.prior (st.base_lt m a ha u hbase))
          (h.kernel st st' u.prior) _ _

end Stheno
