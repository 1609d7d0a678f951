import Verif.Cache
import Verif.Props.Calls
import Verif.Props.Groups
import Verif.Post
import Verif.Study

/-!
# C42: cached observation quantities are never stale
-/

namespace Stheno

open Matrix

theorem callK_iff {w : World} {m : MId} {p q : PId} {x y : Input} {A : Mat} :
    callK w m p q x y = some A ↔ KernelCall w m p q x y A := by
  unfold callK
  split
  · next h => exact ⟨fun e => Option.some.inj e ▸ h.choose_spec, fun e => congrArg some (h.choose_spec.unique e)⟩
  · next h => exact ⟨fun e => by simp at e, fun e => (h ⟨A, e⟩).elim⟩

theorem callM_iff {w : World} {m : MId} {p : PId} {x : Input} {v : List ℝ} : callM w m p x = some v ↔ MeanCall w m p x v := by
  unfold callM
  split
  · next h => exact ⟨fun e => Option.some.inj e ▸ h.choose_spec, fun e => congrArg some (h.choose_spec.unique e)⟩
  · next h => exact ⟨fun e => by simp at e, fun e => (h ⟨v, e⟩).elim⟩

theorem callD_iff {w : World} {m : MId} {p q : PId} {x y : Input} {u : List ℝ} :
    callD w m p q x y = some u ↔ ElwiseCall w m p q x y u := by
  unfold callD
  split
  · next h => exact ⟨fun e => Option.some.inj e ▸ h.choose_spec, fun e => congrArg some (h.choose_spec.unique e)⟩
  · next h => exact ⟨fun e => by simp at e, fun e => (h ⟨u, e⟩).elim⟩

/-- What returns in `w` returns the same in `w'`. -/
structure Later (w w' : World) : Prop where
  K : ∀ {m p q x y A}, callK w m p q x y = some A → callK w' m p q x y = some A
  M : ∀ {m p x v}, callM w m p x = some v → callM w' m p x = some v
  D : ∀ {m p q x y u}, callD w m p q x y = some u → callD w' m p q x y = some u

theorem Later.append (ops later : List Op) : Later (runOps ops {}) (runOps (ops ++ later) {}) where
  K h := callK_iff.2 (C05_kernel_call (callK_iff.1 h))
  M h := callM_iff.2 (C05_mean_call (callM_iff.1 h))
  D h := callD_iff.2 (C05_elwise_call (callD_iff.1 h))

/-! ## Exact observations -/

section Exact
variable (p : PId) (x : Input) (noise : Mat)

theorem getKx_fresh (w : World) (m : MId) (d : Dict Mat) (h : d m = none) :
    getKx w p x noise m d = match (callK w m p p x x).bind fun A => A.add noise with
      | some K => (d.set m K, some K)
      | none => (d, none) := by
  unfold getKx Mut.cached
  simp only [h, bind, Mut.lift, Mut.write]
  cases callK w m p p x x with
  | none => rfl
  | some A =>
    simp only [Option.bind_some]
    cases A.add noise with
    | none => rfl
    | some K => simp [Dict.set]

/-- The entries are right. -/
def RightKx (w : World) (d : Dict Mat) : Prop :=
  ∀ m K, d m = some K → ((callK w m p p x x).bind fun A => A.add noise) = some K

theorem RightKx.later {w w' : World} {d : Dict Mat} (h : RightKx p x noise w d) (hw : Later w w') : RightKx p x noise w' d := by
  intro m K hK
  obtain ⟨A, hA, e⟩ := Option.bind_eq_some_iff.1 (h m K hK)
  rw [hw.K hA]; exact e

theorem RightKx.get {w : World} {d : Dict Mat} (h : RightKx p x noise w d) (m : MId) :
    RightKx p x noise w (getKx w p x noise m d).1 ∧
    (getKx w p x noise m d).2 = (callK w m p p x x).bind fun A => A.add noise := by
  cases hd : d m with
  | some K =>
    have : getKx w p x noise m d = (d, some K) := by unfold getKx Mut.cached; simp only [hd]
    rw [this]; exact ⟨h, (h m K hd).symm⟩
  | none =>
    rw [getKx_fresh p x noise w m d hd]
    cases hK : (callK w m p p x x).bind fun A => A.add noise with
    | none => exact ⟨h, rfl⟩
    | some K =>
      refine ⟨fun m' K' hm' => ?_, rfl⟩
      by_cases e : m' = m
      · subst e; simp only [Dict.set, if_true] at hm'; rw [← hm']; exact hK
      · simp only [Dict.set, if_neg e] at hm'; exact h m' K' hm'

theorem RightKx.kept : ∀ (es : List Event) (ops : List Op) (d : Dict Mat), RightKx p x noise (runOps ops {}) d →
    RightKx p x noise (runOps (ops ++ Event.ops es) {}) (keptKx p x noise ops es d)
  | [], ops, d, h => by simpa [Event.ops, keptKx] using h
  | .op o :: es, ops, d, h => by
    have := RightKx.kept es (ops ++ [o]) d (h.later p x noise (Later.append ops [o]))
    simpa [Event.ops, keptKx] using this
  | .Kx m :: es, ops, d, h => by simpa [Event.ops, keptKx] using RightKx.kept es ops _ (h.get p x noise m).1
  | .Kz m :: es, ops, d, h | .elbo m :: es, ops, d, h | .mu m :: es, ops, d, h | .A m :: es, ops, d, h => by
    simpa [Event.ops, keptKx] using RightKx.kept es ops d h

/-- **C42, exact observations.** Whatever was asked of the observation object before, and however the model was extended in between: `K_x(measure)`
returns `K` if and only if `K` is the kernel matrix of the data in the model as it is now, plus the noise. -/
theorem C42_Kx (es : List Event) (m : MId) (K : Mat) :
    (getKx (runOps (Event.ops es) {}) p x noise m (keptKx p x noise [] es fun _ => none)).2 = some K ↔
      ∃ A, KernelCall (runOps (Event.ops es) {}) m p p x x A ∧ A.add noise = some K := by
  have h := RightKx.kept p x noise es [] (fun _ => none) (fun m K h => by simp at h)
  rw [List.nil_append] at h
  rw [(h.get p x noise m).2, Option.bind_eq_some_iff]
  simp only [callK_iff]

/-- **C42, exact observations.** The same as what a fresh object returns. -/
theorem C42_Kx_fresh (es : List Event) (m : MId) :
    (getKx (runOps (Event.ops es) {}) p x noise m (keptKx p x noise [] es fun _ => none)).2 =
      (getKx (runOps (Event.ops es) {}) p x noise m fun _ => none).2 := by
  have h := RightKx.kept p x noise es [] (fun _ => none) (fun m K h => by simp at h)
  rw [List.nil_append] at h
  have h' : RightKx p x noise (runOps (Event.ops es) {}) fun _ => none := fun m K h => by simp at h
  rw [(h.get p x noise m).2, (h'.get p x noise m).2]

end Exact

/-! ## Pseudo-observations -/

section Pseudo
variable (w : World) (pu p : PId) (o : PseudoData) (m : MId)

/-- Lines 284-287. -/
noncomputable def partK : Option (Mat × Mat) := do
  let Z ← callK w m pu p o.z o.x
  let A ← callK w m pu pu o.z o.z
  let K ← A.add o.noiseZ
  some (Z, K)

open Classical in
/-- Lines 293-316. -/
noncomputable def partG : Option Ingredients := do
  let (Z, K) ← partK w pu p o m
  if o.noiseX.isDiagonal = true ∧ (K.r = K.c ∧ (K.sq K.r).PosDef) ∧ (Z.r = K.r ∧ o.noiseX.mat.r = Z.c ∧ o.noiseX.mat.c = Z.c) then
    let kx ← kxDiag w p o m Z.c
    if ∀ j, 0 < knDiag o.method (K.sq K.r) (Z.rect K.r) kx (fun j => o.noiseX.mat.e j j) j then
      some ⟨K.r, Z.c, K.sq K.r, Z.rect K.r, kx, fun j => o.noiseX.mat.e j j⟩
    else none
  else none

/-- Lines 326-329. -/
noncomputable def partY : Option (Ingredients × List ℝ × List ℝ) := do
  let g ← partG w pu p o m
  let mx ← callM w m p o.x
  if mx.length = g.k ∧ o.y.length = g.k then
    let mz ← callM w m pu o.z
    if mz.length = g.n then some (g, mx, mz) else none
  else none

/-- `self._A`. -/
noncomputable def valA (g : Ingredients) : Mat := Mat.ofSq (subspaceA o.method g.Kz g.Kzx g.kx g.noise)

/-- `self._mu`. -/
noncomputable def valMu (t : Ingredients × List ℝ × List ℝ) : List ℝ := List.ofFn fun a : Fin t.1.n =>
  t.2.2.getD a 0 + muShift o.method t.1.Kz t.1.Kzx t.1.kx t.1.noise (fun j => o.y.getD j 0 - t.2.1.getD j 0) a

/-- `self._elbo`. -/
noncomputable def valElbo (t : Ingredients × List ℝ × List ℝ) : ℝ :=
  elboOf o.method t.1.Kz t.1.Kzx t.1.kx t.1.noise fun j => o.y.getD j 0 - t.2.1.getD j 0

/-- Write if there is something to write. -/
def Dict.put {α : Type} (d : Dict α) (m : MId) : Option α → Dict α
  | some a => d.set m a
  | none => d

theorem compute_eq (d : Kept) : compute w pu p o m d =
    (⟨d.Kz.put m ((partK w pu p o m).map (·.2)), d.elbo.put m ((partY w pu p o m).map (valElbo o)),
      d.mu.put m ((partY w pu p o m).map (valMu o)), d.A.put m ((partG w pu p o m).map (valA o))⟩,
      (partY w pu p o m).map fun _ => ()) := by
  unfold compute partY partG partK
  simp only [bind, Mut.lift, Mut.write, Mut.check]
  cases callK w m pu p o.z o.x with
  | none => rfl
  | some Z =>
  cases callK w m pu pu o.z o.z with
  | none => rfl
  | some A =>
  simp only [Option.bind_some]
  cases A.add o.noiseZ with
  | none => rfl
  | some K =>
  simp only [Option.bind_some]
  by_cases h1 : o.noiseX.isDiagonal = true
  swap
  · rw [if_neg h1, if_neg (show ¬ (o.noiseX.isDiagonal = true ∧ (K.r = K.c ∧ (K.sq K.r).PosDef) ∧ (Z.r = K.r ∧ o.noiseX.mat.r = Z.c ∧ o.noiseX.mat.c = Z.c)) from fun h => h1 h.1)]; rfl
  by_cases h2 : K.r = K.c ∧ (K.sq K.r).PosDef
  swap
  · rw [if_pos h1, if_neg h2, if_neg (show ¬ (o.noiseX.isDiagonal = true ∧ (K.r = K.c ∧ (K.sq K.r).PosDef) ∧ (Z.r = K.r ∧ o.noiseX.mat.r = Z.c ∧ o.noiseX.mat.c = Z.c)) from fun h => h2 h.2.1)]; rfl
  by_cases h3 : Z.r = K.r ∧ o.noiseX.mat.r = Z.c ∧ o.noiseX.mat.c = Z.c
  swap
  · rw [if_pos h1, if_pos h2, if_neg h3, if_neg (show ¬ (o.noiseX.isDiagonal = true ∧ (K.r = K.c ∧ (K.sq K.r).PosDef) ∧ (Z.r = K.r ∧ o.noiseX.mat.r = Z.c ∧ o.noiseX.mat.c = Z.c)) from fun h => h3 h.2.2)]; rfl
  rw [if_pos h1, if_pos h2, if_pos h3, if_pos ⟨h1, h2, h3⟩]
  dsimp only
  cases kxDiag w p o m Z.c with
  | none => rfl
  | some kx =>
  simp only [Option.bind_some]
  by_cases h4 : ∀ j, 0 < knDiag o.method (K.sq K.r) (Z.rect K.r) kx (fun j => o.noiseX.mat.e j j) j
  swap
  · rw [if_neg h4, if_neg h4]; rfl
  rw [if_pos h4, if_pos h4]
  simp only [Option.bind_some]
  cases callM w m p o.x with
  | none => rfl
  | some mx =>
  simp only [Option.bind_some]
  by_cases h5 : mx.length = Z.c ∧ o.y.length = Z.c
  swap
  · rw [if_neg h5, if_neg h5]; rfl
  rw [if_pos h5, if_pos h5]
  dsimp only
  cases callM w m pu o.z with
  | none => rfl
  | some mz =>
  simp only [Option.bind_some]
  by_cases h6 : mz.length = K.r
  swap
  · rw [if_neg h6, if_neg h6]; rfl
  rw [if_pos h6, if_pos h6]
  rfl

variable {w m} in
theorem partK_later {w' : World} (hw : Later w w') {t : Mat × Mat} (h : partK w pu p o m = some t) : partK w' pu p o m = some t := by
  unfold partK at h ⊢
  obtain ⟨Z, hZ, h⟩ := bind_some h
  obtain ⟨A, hA, h⟩ := bind_some h
  rw [hw.K hZ, hw.K hA]; exact h

variable {w m} in
theorem kxDiag_later {w' : World} (hw : Later w w') {k : ℕ} {v : Fin k → ℝ} (h : kxDiag w p o m k = some v) : kxDiag w' p o m k = some v := by
  unfold kxDiag at h ⊢
  split at h
  · exact h
  · obtain ⟨u, hu, h⟩ := bind_some h
    rw [hw.D hu]; exact h

variable {w m} in
theorem partG_later {w' : World} (hw : Later w w') {g : Ingredients} (h : partG w pu p o m = some g) : partG w' pu p o m = some g := by
  unfold partG at h ⊢
  obtain ⟨⟨Z, K⟩, hK, h⟩ := bind_some h
  rw [partK_later pu p o hw hK]
  dsimp only at h ⊢
  split at h
  · next hc =>
    obtain ⟨kx, hx, h⟩ := bind_some h
    simp only [bind, Option.bind_some]
    rw [if_pos hc, kxDiag_later p o hw hx]; exact h
  · simp at h

variable {w m} in
theorem partY_later {w' : World} (hw : Later w w') {t : Ingredients × List ℝ × List ℝ} (h : partY w pu p o m = some t) :
    partY w' pu p o m = some t := by
  unfold partY at h ⊢
  obtain ⟨g, hg, h⟩ := bind_some h
  obtain ⟨mx, hx, h⟩ := bind_some h
  rw [partG_later pu p o hw hg, hw.M hx]
  simp only [bind, Option.bind_some]
  split at h
  · next hc =>
    obtain ⟨mz, hz, h⟩ := bind_some h
    rw [if_pos hc, hw.M hz]; exact h
  · simp at h

/-- The entries are right. -/
structure RightP (d : Kept) : Prop where
  Kz : ∀ m K, d.Kz m = some K → (partK w pu p o m).map (·.2) = some K
  A : ∀ m A, d.A m = some A → (partG w pu p o m).map (valA o) = some A
  mu : ∀ m v, d.mu m = some v → (partY w pu p o m).map (valMu o) = some v
  elbo : ∀ m r, d.elbo m = some r → (partY w pu p o m).map (valElbo o) = some r

variable {w} in
theorem RightP.later {w' : World} {d : Kept} (h : RightP w pu p o d) (hw : Later w w') : RightP w' pu p o d := by
  refine ⟨fun m v hv => ?_, fun m v hv => ?_, fun m v hv => ?_, fun m v hv => ?_⟩
  · obtain ⟨t, ht, e⟩ := Option.map_eq_some_iff.1 (h.Kz m v hv); rw [partK_later pu p o hw ht]; exact congrArg some e
  · obtain ⟨t, ht, e⟩ := Option.map_eq_some_iff.1 (h.A m v hv); rw [partG_later pu p o hw ht]; exact congrArg some e
  · obtain ⟨t, ht, e⟩ := Option.map_eq_some_iff.1 (h.mu m v hv); rw [partY_later pu p o hw ht]; exact congrArg some e
  · obtain ⟨t, ht, e⟩ := Option.map_eq_some_iff.1 (h.elbo m v hv); rw [partY_later pu p o hw ht]; exact congrArg some e

theorem put_right {α : Type} {d : Dict α} {f : MId → Option α} (h : ∀ m v, d m = some v → f m = some v) (m : MId) :
    ∀ m' v, d.put m (f m) m' = some v → f m' = some v := by
  intro m' v hv
  cases hf : f m with
  | none => rw [hf] at hv; exact h m' v hv
  | some a =>
    rw [hf] at hv
    by_cases e : m' = m
    · subst e; simp only [Dict.put, Dict.set, if_true] at hv; rw [hf, hv]
    · simp only [Dict.put, Dict.set, if_neg e] at hv; exact h m' v hv

theorem put_same {α : Type} {d : Dict α} {m : MId} (hd : d m = none) (a : Option α) : d.put m a m = a := by
  cases a with
  | none => exact hd
  | some a => simp [Dict.put, Dict.set]

variable {w} in
theorem RightP.compute {d : Kept} (h : RightP w pu p o d) (m : MId) : RightP w pu p o (Stheno.compute w pu p o m d).1 := by
  rw [compute_eq]
  exact ⟨put_right h.Kz m, put_right h.A m, put_right h.mu m, put_right h.elbo m⟩

theorem cached_fst {σ α : Type} {e : σ → Option α} {c : Mut σ Unit} {P : σ → Prop} {s : σ} (h : P s) (hc : P (c s).1) :
    P (Mut.cached e c s).1 := by
  unfold Mut.cached
  split
  · exact h
  · exact hc

variable {w} in
theorem RightP.kept : ∀ (es : List Event) (ops : List Op) (d : Kept), RightP (runOps ops {}) pu p o d →
    RightP (runOps (ops ++ Event.ops es) {}) pu p o (keptPseudo pu p o ops es d)
  | [], ops, d, h => by simpa [Event.ops, keptPseudo] using h
  | .op a :: es, ops, d, h => by
    have := RightP.kept es (ops ++ [a]) d (h.later pu p o (Later.append ops [a]))
    simpa [Event.ops, keptPseudo] using this
  | .Kx m :: es, ops, d, h => by simpa [Event.ops, keptPseudo] using RightP.kept es ops d h
  | .Kz m :: es, ops, d, h | .elbo m :: es, ops, d, h | .mu m :: es, ops, d, h | .A m :: es, ops, d, h => by
    simpa [Event.ops, keptPseudo, getKz, getElbo, getMu, getA] using RightP.kept es ops _ (cached_fst (P := RightP (runOps ops {}) pu p o) h (h.compute pu p o m))

theorem RightP.empty : RightP w pu p o {} :=
  ⟨fun _ _ h => by simp at h, fun _ _ h => by simp at h, fun _ _ h => by simp at h, fun _ _ h => by simp at h⟩

variable {w} in
theorem RightP.get_mu {d : Kept} (h : RightP w pu p o d) : (getMu w pu p o m d).2 = (partY w pu p o m).map (valMu o) := by
  unfold getMu Mut.cached
  split
  · next v hv => exact (h.mu m v hv).symm
  · next hv =>
    rw [compute_eq]
    dsimp only
    rw [put_same hv]
    cases partY w pu p o m <;> rfl

variable {w} in
theorem RightP.get_elbo {d : Kept} (h : RightP w pu p o d) : (getElbo w pu p o m d).2 = (partY w pu p o m).map (valElbo o) := by
  unfold getElbo Mut.cached
  split
  · next v hv => exact (h.elbo m v hv).symm
  · next hv =>
    rw [compute_eq]
    dsimp only
    rw [put_same hv]
    cases partY w pu p o m <;> rfl

theorem reached (es : List Event) : RightP (runOps (Event.ops es) {}) pu p o (keptPseudo pu p o [] es {}) := by
  have h := RightP.kept pu p o es [] {} (RightP.empty _ pu p o)
  rwa [List.nil_append] at h

/-- **C42, optimal mean.** Whatever was asked of the object before, and however the model was extended in between: `mu(measure)` returns what a
fresh object returns for the model as it is now. -/
theorem C42_mu (es : List Event) (m : MId) :
    (getMu (runOps (Event.ops es) {}) pu p o m (keptPseudo pu p o [] es {})).2 = (getMu (runOps (Event.ops es) {}) pu p o m {}).2 := by
  rw [(reached pu p o es).get_mu, (RightP.empty _ pu p o).get_mu]

/-- **C42, ELBO.** The same for `elbo(measure)`. -/
theorem C42_elbo (es : List Event) (m : MId) :
    (getElbo (runOps (Event.ops es) {}) pu p o m (keptPseudo pu p o [] es {})).2 = (getElbo (runOps (Event.ops es) {}) pu p o m {}).2 := by
  rw [(reached pu p o es).get_elbo, (RightP.empty _ pu p o).get_elbo]

/-- **C42, `K_z`.** If a fresh object returns `K` for the model as it is now, then so does the object. If the object returns `K`, then `K` is the
kernel matrix of the inducing points in the model as it is now, plus the noise; and it is what a fresh object would have kept. -/
theorem C42_Kz (es : List Event) (m : MId) (K : Mat) :
    ((getKz (runOps (Event.ops es) {}) pu p o m {}).2 = some K →
      (getKz (runOps (Event.ops es) {}) pu p o m (keptPseudo pu p o [] es {})).2 = some K) ∧
    ((getKz (runOps (Event.ops es) {}) pu p o m (keptPseudo pu p o [] es {})).2 = some K →
      (∃ A, KernelCall (runOps (Event.ops es) {}) m pu pu o.z o.z A ∧ A.add o.noiseZ = some K) ∧
      (getKz (runOps (Event.ops es) {}) pu p o m {}).1.Kz m = some K) := by
  have h := reached pu p o es
  have e : ∀ d : Kept, d.Kz m = none → (getKz (runOps (Event.ops es) {}) pu p o m d).2 =
      (partY (runOps (Event.ops es) {}) pu p o m).bind fun _ => (partK (runOps (Event.ops es) {}) pu p o m).map (·.2) := by
    intro d hd
    unfold getKz Mut.cached
    simp only [hd]
    rw [compute_eq]
    dsimp only
    rw [put_same hd]
    cases partY (runOps (Event.ops es) {}) pu p o m <;> rfl
  have e1 : (getKz (runOps (Event.ops es) {}) pu p o m {}).1.Kz m = (partK (runOps (Event.ops es) {}) pu p o m).map (·.2) := by
    unfold getKz Mut.cached
    dsimp only
    rw [compute_eq]
    exact put_same rfl _
  have hk : (getKz (runOps (Event.ops es) {}) pu p o m (keptPseudo pu p o [] es {})).2 = some K →
      (partK (runOps (Event.ops es) {}) pu p o m).map (·.2) = some K := by
    intro hK
    cases hd : (keptPseudo pu p o [] es {}).Kz m with
    | some K' =>
      unfold getKz Mut.cached at hK
      simp only [hd] at hK
      cases hK
      exact h.Kz m _ hd
    | none =>
      rw [e _ hd] at hK
      obtain ⟨_, _, hK⟩ := Option.bind_eq_some_iff.1 hK
      exact hK
  refine ⟨fun hf => ?_, fun hK => ⟨?_, e1.trans (hk hK)⟩⟩
  · cases hd : (keptPseudo pu p o [] es {}).Kz m with
    | none => rw [e _ hd, ← e {} rfl]; exact hf
    | some K' =>
      rw [e {} rfl] at hf
      obtain ⟨_, _, hf⟩ := Option.bind_eq_some_iff.1 hf
      unfold getKz Mut.cached
      simp only [hd]
      rw [← hf, h.Kz m _ hd]
  · obtain ⟨⟨Z, K'⟩, ht, eK⟩ := Option.map_eq_some_iff.1 (hk hK)
    cases eK
    unfold partK at ht
    obtain ⟨Z', _, ht⟩ := bind_some ht
    obtain ⟨A, hA, ht⟩ := bind_some ht
    obtain ⟨K'', hK', ht⟩ := bind_some ht
    cases ht
    exact ⟨A, callK_iff.1 hA, hK'⟩

/-- **C42, `A`.** If a fresh object returns `A` for the model as it is now, then so does the object; and if the object returns `A`, then `A` is
what a fresh object would have kept. -/
theorem C42_A (es : List Event) (m : MId) (A : Mat) :
    ((getA (runOps (Event.ops es) {}) pu p o m {}).2 = some A →
      (getA (runOps (Event.ops es) {}) pu p o m (keptPseudo pu p o [] es {})).2 = some A) ∧
    ((getA (runOps (Event.ops es) {}) pu p o m (keptPseudo pu p o [] es {})).2 = some A →
      (getA (runOps (Event.ops es) {}) pu p o m {}).1.A m = some A) := by
  have h := reached pu p o es
  have e : ∀ d : Kept, d.A m = none → (getA (runOps (Event.ops es) {}) pu p o m d).2 =
      (partY (runOps (Event.ops es) {}) pu p o m).bind fun _ => (partG (runOps (Event.ops es) {}) pu p o m).map (valA o) := by
    intro d hd
    unfold getA Mut.cached
    simp only [hd]
    rw [compute_eq]
    dsimp only
    rw [put_same hd]
    cases partY (runOps (Event.ops es) {}) pu p o m <;> rfl
  have e1 : (getA (runOps (Event.ops es) {}) pu p o m {}).1.A m = (partG (runOps (Event.ops es) {}) pu p o m).map (valA o) := by
    unfold getA Mut.cached
    dsimp only
    rw [compute_eq]
    exact put_same rfl _
  refine ⟨fun hf => ?_, fun hK => e1.trans ?_⟩
  · cases hd : (keptPseudo pu p o [] es {}).A m with
    | none => rw [e _ hd, ← e {} rfl]; exact hf
    | some K' =>
      rw [e {} rfl] at hf
      obtain ⟨_, _, hf⟩ := Option.bind_eq_some_iff.1 hf
      unfold getA Mut.cached
      simp only [hd]
      rw [← hf, h.A m _ hd]
  · cases hd : (keptPseudo pu p o [] es {}).A m with
    | some K' =>
      unfold getA Mut.cached at hK
      simp only [hd] at hK
      cases hK
      exact h.A m _ hd
    | none =>
      rw [e _ hd] at hK
      obtain ⟨_, _, hK⟩ := Option.bind_eq_some_iff.1 hK
      exact hK

/-- **C42, found.** With noise that is not diagonal, the first `K_z(measure)` raises, as it should; but asking again returns a matrix. -/
theorem C42_Kz_wrong {ops : List Op} {Z A K : Mat} (hZ : KernelCall (runOps ops {}) m pu p o.z o.x Z)
    (hA : KernelCall (runOps ops {}) m pu pu o.z o.z A) (hK : A.add o.noiseZ = some K) (hn : o.noiseX.isDiagonal = false) :
    (getKz (runOps ops {}) pu p o m {}).2 = none ∧
      (getKz (runOps ops {}) pu p o m (getKz (runOps ops {}) pu p o m {}).1).2 = some K := by
  have hP : partK (runOps ops {}) pu p o m = some (Z, K) := by
    unfold partK
    rw [callK_iff.2 hZ, callK_iff.2 hA]
    simp only [bind, Option.bind_some, hK]
  have hY : partY (runOps ops {}) pu p o m = none := by
    unfold partY partG
    simp [hP, hn]
  have e : getKz (runOps ops {}) pu p o m {} =
      ((compute (runOps ops {}) pu p o m {}).1, (compute (runOps ops {}) pu p o m {}).2.bind fun _ => (compute (runOps ops {}) pu p o m {}).1.Kz m) := rfl
  have e1 : (compute (runOps ops {}) pu p o m {}).1.Kz m = some K := by
    rw [compute_eq, hP]
    show Dict.put (fun _ => none) m (some K) m = some K
    exact put_same rfl _
  refine ⟨?_, ?_⟩
  · rw [e, compute_eq, hY]; rfl
  · rw [e]
    unfold getKz Mut.cached
    simp only [e1]

theorem call_attached {ops : List Op} {q : PId} {x y : Input} {A : Mat} (h : KernelCall (runOps ops {}) m p q x y A) :
    Attached (runOps ops {}) m p ∧ m ∈ groups (runOps ops {}) p ∧ Attached (runOps ops {}) m q ∧ m ∈ groups (runOps ops {}) q := by
  obtain ⟨k, n, hk, _⟩ := h
  have iv := Inv.reach ops
  rw [iv.kernelAt] at hk
  have hm : ∃ a, (specOps ops {}).ms[m]? = some a := by
    cases ha : (specOps ops {}).ms[m]? with
    | some a => exact ⟨a, rfl⟩
    | none => simp [AWorld.kernel, specKAux, ha] at hk
  obtain ⟨a, ha⟩ := hm
  rw [kernel_eq (fun m a h => (iv.wf.ms m a h).base_lt) ha] at hk
  have hm := lookKDefs_known hk
  have h1 : Attached (runOps ops {}) m p := iv.attached.2 ⟨a, ha, hm.1⟩
  have h2 : Attached (runOps ops {}) m q := iv.attached.2 ⟨a, ha, hm.2⟩
  exact ⟨h1, ((C32_consistent ops).1 m p).1 h1, h2, ((C32_consistent ops).1 m q).1 h2⟩

/-- **C42, keys.** If something was kept for a measure, then the measure is among the measures of the observed process (and of the inducing
process). As the observation object refers to the process, and the process to its measures, the measure object is alive, so that its `id`
cannot belong to another measure. -/
theorem C42_alive (x : Input) (noise : Mat) (es : List Event) (m : MId) :
    (keptKx p x noise [] es (fun _ => none) m ≠ none → m ∈ groups (runOps (Event.ops es) {}) p) ∧
    ((keptPseudo pu p o [] es {}).Kz m ≠ none ∨ (keptPseudo pu p o [] es {}).A m ≠ none ∨ (keptPseudo pu p o [] es {}).mu m ≠ none ∨
        (keptPseudo pu p o [] es {}).elbo m ≠ none →
      m ∈ groups (runOps (Event.ops es) {}) pu ∧ m ∈ groups (runOps (Event.ops es) {}) p) := by
  constructor
  · intro h
    obtain ⟨K, hK⟩ := Option.ne_none_iff_exists'.1 h
    have hr := RightKx.kept p x noise es [] (fun _ => none) (fun m K h => by simp at h)
    rw [List.nil_append] at hr
    obtain ⟨A, hA, _⟩ := Option.bind_eq_some_iff.1 (hr m K hK)
    exact (call_attached _ _ (callK_iff.1 hA)).2.1
  · intro h
    have hr := reached pu p o es
    have hk : ∃ t, partK (runOps (Event.ops es) {}) pu p o m = some t := by
      have g : ∀ g, partG (runOps (Event.ops es) {}) pu p o m = some g → ∃ t, partK (runOps (Event.ops es) {}) pu p o m = some t :=
        fun g hg => by unfold partG at hg; obtain ⟨t, ht, _⟩ := bind_some hg; exact ⟨t, ht⟩
      have y : ∀ t, partY (runOps (Event.ops es) {}) pu p o m = some t → ∃ t, partK (runOps (Event.ops es) {}) pu p o m = some t :=
        fun t ht => by unfold partY at ht; obtain ⟨t, ht, _⟩ := bind_some ht; exact g t ht
      rcases h with h | h | h | h <;> obtain ⟨v, hv⟩ := Option.ne_none_iff_exists'.1 h
      · obtain ⟨t, ht, _⟩ := Option.map_eq_some_iff.1 (hr.Kz m v hv); exact ⟨t, ht⟩
      · obtain ⟨t, ht, _⟩ := Option.map_eq_some_iff.1 (hr.A m v hv); exact g t ht
      · obtain ⟨t, ht, _⟩ := Option.map_eq_some_iff.1 (hr.mu m v hv); exact y t ht
      · obtain ⟨t, ht, _⟩ := Option.map_eq_some_iff.1 (hr.elbo m v hv); exact y t ht
    obtain ⟨t, ht⟩ := hk
    unfold partK at ht
    obtain ⟨Z, hZ, _⟩ := bind_some ht
    have := call_attached _ _ (callK_iff.1 hZ)
    exact ⟨this.2.1, this.2.2.2⟩

end Pseudo

/-! ## What posteriors use -/

section Used
variable {ops before : List Op} {m m' : MId} {pu p i j : PId} {o : PseudoData} {xs ys : List Pt}

theorem ingredients_part {n : ℕ} {kzz kzx kxx : KExpr} {g : Ingredients} (h1 : kernelAt (runOps ops {}) m pu pu = some kzz)
    (h2 : kernelAt (runOps ops {}) m pu p = some kzx) (h3 : kernelAt (runOps ops {}) m p p = some kxx) (hd : o.noiseX.isDiagonal = true)
    (h : stepIngredients (ev (meanAt (runOps ops {})) (kernelAt (runOps ops {})) n) kzz kzx kxx o = some g) :
    partG (runOps ops {}) pu p o m = some g ∧ ∃ K, (partK (runOps ops {}) pu p o m).map (·.2) = some K ∧ K.r = g.n ∧ K.c = g.n ∧
      ∀ a b : Fin g.n, K.e a b = g.Kz a b := by
  unfold stepIngredients stepKz at h
  obtain ⟨K, hK, h⟩ := bind_some h
  obtain ⟨A, hA, hK⟩ := bind_some hK
  obtain ⟨K', hK', hK⟩ := bind_some hK
  split at hK
  swap
  · simp at hK
  next hc =>
  cases hK
  obtain ⟨Z, hZ, h⟩ := bind_some h
  have hP : partK (runOps ops {}) pu p o m = some (Z, K) := by
    unfold partK
    rw [callK_iff.2 ⟨kzx, n, h2, hZ⟩, callK_iff.2 ⟨kzz, n, h1, hA⟩]
    simp only [bind, Option.bind_some, hK']
  split at h
  swap
  · simp at h
  next hs =>
  obtain ⟨kx, hx, h⟩ := bind_some h
  have hx' : kxDiag (runOps ops {}) p o m Z.c = some kx := by
    unfold stepKx at hx
    unfold kxDiag
    cases hm : o.method <;> simp only [hm] at hx ⊢
    · obtain ⟨v, hv, hx⟩ := bind_some hx
      rw [callD_iff.2 ⟨kxx, n, h3, hv⟩]
      exact hx
    · obtain ⟨v, hv, hx⟩ := bind_some hx
      rw [callD_iff.2 ⟨kxx, n, h3, hv⟩]
      exact hx
    · exact hx
  split at h
  swap
  · simp at h
  next hk =>
  cases h
  refine ⟨?_, K, by rw [hP]; rfl, rfl, hc.1.symm, fun a b => rfl⟩
  unfold partG
  rw [hP]
  simp only [bind, Option.bind_some]
  rw [if_pos ⟨hd, hc, hs⟩, hx']
  simp only [Option.bind_some]
  exact if_pos hk

theorem ofSq_sq {n : ℕ} (A : Matrix (Fin n) (Fin n) ℝ) : (Mat.ofSq A).sq n = A := by
  ext a b
  show (if h : (a : ℕ) < n ∧ (b : ℕ) < n then A ⟨a, h.1⟩ ⟨b, h.2⟩ else 0) = A a b
  rw [dif_pos ⟨a.2, b.2⟩]

/-- **C42, what posteriors use.** Kernels of a posterior given pseudo-observations are computed with the matrices that a fresh observation object
keeps for the prior: `K_z` and `A` (`stheno/model/observations.py:255-277`). -/
theorem C42_used (g : Gives ops before m (.pseudo pu p o) m') (hi : Attached (runOps before {}) m i) (hj : Attached (runOps before {}) m j)
    {P : Mat} (h : KernelCall (runOps ops {}) m' i j (.num xs) (.num ys) P) :
    ∃ (n : ℕ) (Kz A Kij B C Q R D : Mat),
      (compute (runOps ops {}) pu p o m {}).1.Kz m = some Kz ∧ (compute (runOps ops {}) pu p o m {}).1.A m = some A ∧
      Kz.r = n ∧ Kz.c = n ∧ A.r = n ∧ A.c = n ∧
      KernelCall (runOps ops {}) m i j (.num xs) (.num ys) Kij ∧ KernelCall (runOps ops {}) m pu i o.z (.num xs) B ∧ KernelCall (runOps ops {}) m pu j o.z (.num ys) C ∧
      Mat.quad (Kz.sq n)⁻¹ B C = some Q ∧ Mat.quad (A.sq n)⁻¹ B C = some R ∧ Kij.sub Q = some D ∧ D.add R = some P := by
  obtain ⟨k, n, hk, hP⟩ := h
  rw [g.kernelAt_eq hi hj] at hk
  unfold obsKernel at hk
  obtain ⟨kij, h1, hk⟩ := bind_some hk
  obtain ⟨kzi, h2, hk⟩ := bind_some hk
  obtain ⟨kzj, h3, hk⟩ := bind_some hk
  obtain ⟨kzx, h4, hk⟩ := bind_some hk
  obtain ⟨kzz, h5, hk⟩ := bind_some hk
  split at hk
  swap
  · simp at hk
  next hd =>
  obtain ⟨kxx, h6, hk⟩ := bind_some hk
  cases hk
  obtain _ | n := n
  · simp [ev, Ev.bot] at hP
  obtain ⟨Kij, hij, hP⟩ := bind_some hP
  obtain ⟨G, hG, hP⟩ := bind_some hP
  obtain ⟨B, hB, hP⟩ := bind_some hP
  obtain ⟨C, hC, hP⟩ := bind_some hP
  obtain ⟨Q, hQ, hP⟩ := bind_some hP
  obtain ⟨D, hD, hP⟩ := bind_some hP
  obtain ⟨R, hR, hP⟩ := bind_some hP
  obtain ⟨e1, Kz, e2, e3, e4, e5⟩ := ingredients_part h5 h4 h6 hd hG
  refine ⟨G.n, Kz, valA o G, Kij, B, C, Q, R, D, ?_, ?_, e3, e4, rfl, rfl, ⟨_, n, h1, hij⟩, ⟨_, n, h2, hB⟩, ⟨_, n, h3, hC⟩, ?_, ?_, hD, hP⟩
  · rw [compute_eq, e2]
    show Dict.put (fun _ => none) m (some Kz) m = some Kz
    exact put_same rfl _
  · rw [compute_eq, e1]
    show Dict.put (fun _ => none) m (some (valA o G)) m = some (valA o G)
    exact put_same rfl _
  · rw [show Kz.sq G.n = G.Kz from by ext a b; exact e5 a b]; exact hQ
  · rw [show (valA o G).sq G.n = G.A o from ofSq_sq _]; exact hR

/-- **C42, what posteriors use.** The same for means: `K_z` and `mu` (`stheno/model/observations.py:270-277`). -/
theorem C42_used_mean (g : Gives ops before m (.pseudo pu p o) m') (hi : Attached (runOps before {}) m i)
    {v : List ℝ} (h : MeanCall (runOps ops {}) m' i (.num xs) v) :
    ∃ (n : ℕ) (Kz B : Mat) (mu mz mi d : List ℝ),
      (compute (runOps ops {}) pu p o m {}).1.Kz m = some Kz ∧ (getMu (runOps ops {}) pu p o m {}).2 = some mu ∧
      Kz.r = n ∧ Kz.c = n ∧ mu.length = n ∧ mz.length = n ∧
      MeanCall (runOps ops {}) m i (.num xs) mi ∧ MeanCall (runOps ops {}) m pu o.z mz ∧ KernelCall (runOps ops {}) m pu i o.z (.num xs) B ∧
      Mat.tmulVec B ((Kz.sq n)⁻¹ *ᵥ fun a : Fin n => mu.getD a 0 - mz.getD a 0) = some d ∧ zipCol (· + ·) mi d = some v := by
  obtain ⟨k, n, hk, hP⟩ := h
  rw [g.meanAt_eq hi] at hk
  unfold obsMean at hk
  obtain ⟨mi, h1, hk⟩ := bind_some hk
  obtain ⟨mz, h2, hk⟩ := bind_some hk
  obtain ⟨kzi, h3, hk⟩ := bind_some hk
  obtain ⟨kzx, h4, hk⟩ := bind_some hk
  obtain ⟨kzz, h5, hk⟩ := bind_some hk
  split at hk
  swap
  · simp at hk
  next hd =>
  obtain ⟨kxx, h6, hk⟩ := bind_some hk
  obtain ⟨mx, h7, hk⟩ := bind_some hk
  cases hk
  obtain _ | n := n
  · simp [ev, Ev.bot] at hP
  obtain ⟨u, hu, hP⟩ := bind_some hP
  obtain ⟨G, hG, hP⟩ := bind_some hP
  obtain ⟨mzv, hz, hP⟩ := bind_some hP
  obtain ⟨mxv, hx, hP⟩ := bind_some hP
  obtain ⟨B, hB, hP⟩ := bind_some hP
  split at hP
  swap
  · simp at hP
  next hl =>
  obtain ⟨d, hd', hP⟩ := bind_some hP
  obtain ⟨e1, Kz, e2, e3, e4, e5⟩ := ingredients_part h5 h4 h6 hd hG
  have hY : partY (runOps ops {}) pu p o m = some (G, mxv, mzv) := by
    unfold partY
    rw [e1, callM_iff.2 ⟨_, n, h7, hx⟩, callM_iff.2 ⟨_, n, h2, hz⟩]
    simp only [bind, Option.bind_some]
    rw [if_pos hl.2, if_pos hl.1]
  refine ⟨G.n, Kz, B, valMu o (G, mxv, mzv), mzv, u, d, ?_, ?_, e3, e4, List.length_ofFn, hl.1, ⟨_, n, h1, hu⟩, ⟨_, n, h2, hz⟩,
    ⟨_, n, h3, hB⟩, ?_, hP⟩
  · rw [compute_eq, e2]
    show Dict.put (fun _ => none) m (some Kz) m = some Kz
    exact put_same rfl _
  · rw [(RightP.empty _ pu p o).get_mu, hY]; rfl
  · rw [show Kz.sq G.n = G.Kz from by ext a b; exact e5 a b, ← hd']
    congr 2
    funext a
    simp [valMu, List.getD_eq_getElem?_getD]

end Used

/-! ## Examples -/

/-- A process, one inducing point, one data point. -/
noncomputable def probe : PseudoData := ⟨.vfe, .num [[0]], ⟨1, 1, fun _ _ => 0⟩, .num [[1]], ⟨eye 1, true⟩, [2]⟩

/-- Questions and changes of the model, in turn. -/
noncomputable def talk : List Event :=
  [.op (.gp .zero affine none none), .mu 0, .Kx 0, .op (.condition 0 (.pseudo 0 0 probe)), .Kz 1, .op (.gp .zero affine (some 0) none), .A 0, .Kx 1]

theorem talk_part : (partY (runOps (Event.ops talk) {}) 0 0 probe 0).isSome := by
  have hZ : callK (runOps (Event.ops talk) {}) 0 0 0 (.num [[0]]) (.num [[1]]) = some ⟨1, 1, fun i j => affine.val (([[0]] : List Pt).getD i []) (([[1]] : List Pt).getD j [])⟩ :=
    callK_iff.2 ⟨affine, 1, rfl, rfl⟩
  have hA : callK (runOps (Event.ops talk) {}) 0 0 0 (.num [[0]]) (.num [[0]]) = some ⟨1, 1, fun i j => affine.val (([[0]] : List Pt).getD i []) (([[0]] : List Pt).getD j [])⟩ :=
    callK_iff.2 ⟨affine, 1, rfl, rfl⟩
  have hD : callD (runOps (Event.ops talk) {}) 0 0 0 (.num [[1]]) (.num [[1]]) = some [affine.val [1] [1]] := callD_iff.2 ⟨affine, 1, rfl, rfl⟩
  have hx : callM (runOps (Event.ops talk) {}) 0 0 (.num [[1]]) = some [0] := callM_iff.2 ⟨.zero, 1, rfl, rfl⟩
  have hz : callM (runOps (Event.ops talk) {}) 0 0 (.num [[0]]) = some [0] := callM_iff.2 ⟨.zero, 1, rfl, rfl⟩
  have hP : partK (runOps (Event.ops talk) {}) 0 0 probe 0 = some (⟨1, 1, fun i j => affine.val (([[0]] : List Pt).getD i []) (([[1]] : List Pt).getD j [])⟩,
      ⟨1, 1, fun i j => affine.val (([[0]] : List Pt).getD i []) (([[0]] : List Pt).getD j []) + 0⟩) := by
    unfold partK probe
    rw [hZ, hA]
    rfl
  have hp : (Mat.sq ⟨1, 1, fun i j => affine.val (([[0]] : List Pt).getD i []) (([[0]] : List Pt).getD j []) + 0⟩ 1).PosDef := by
    have : Mat.sq ⟨1, 1, fun i j => affine.val (([[0]] : List Pt).getD i []) (([[0]] : List Pt).getD j []) + 0⟩ 1 = 1 := by
      ext i j
      fin_cases i; fin_cases j
      simp [Mat.sq, affine, KExpr.val]
    rw [this]; exact Matrix.PosDef.one
  have hG : ∃ Kz Kzx kx ns, partG (runOps (Event.ops talk) {}) 0 0 probe 0 = some ⟨1, 1, Kz, Kzx, kx, ns⟩ := by
    unfold partG
    rw [hP]
    simp only [bind, Option.bind_some]
    rw [if_pos ⟨rfl, ⟨rfl, hp⟩, rfl, rfl, rfl⟩]
    have : kxDiag (runOps (Event.ops talk) {}) 0 probe 0 1 = some fun j : Fin 1 => [affine.val [1] [1]].getD j 0 := by
      unfold kxDiag probe
      simp only [bind]
      rw [hD]
      rfl
    rw [this]
    simp only [Option.bind_some]
    rw [if_pos]
    · exact ⟨_, _, _, _, rfl⟩
    · intro j
      show 0 < (eye 1).e j j + 0
      simp [eye]
  obtain ⟨_, _, _, _, hG⟩ := hG
  unfold partY
  rw [hG]
  simp only [bind, Option.bind_some]
  rw [show (probe.x) = .num [[1]] from rfl, show probe.z = .num [[0]] from rfl, hx, hz]
  simp [probe]

/-- In this history, the object answers all questions at the end, with what a fresh object answers. -/
example : ∃ v r K A, (getMu (runOps (Event.ops talk) {}) 0 0 probe 0 (keptPseudo 0 0 probe [] talk {})).2 = some v ∧
    (getElbo (runOps (Event.ops talk) {}) 0 0 probe 0 (keptPseudo 0 0 probe [] talk {})).2 = some r ∧
    (getKz (runOps (Event.ops talk) {}) 0 0 probe 0 (keptPseudo 0 0 probe [] talk {})).2 = some K ∧
    (getA (runOps (Event.ops talk) {}) 0 0 probe 0 (keptPseudo 0 0 probe [] talk {})).2 = some A := by
  obtain ⟨t, ht⟩ := Option.isSome_iff_exists.1 talk_part
  have hg : ∃ g, partG (runOps (Event.ops talk) {}) 0 0 probe 0 = some g := by
    have ht' := ht
    unfold partY at ht'
    obtain ⟨g, hg, _⟩ := bind_some ht'
    exact ⟨g, hg⟩
  obtain ⟨g, hg⟩ := hg
  have hk : ∃ k, partK (runOps (Event.ops talk) {}) 0 0 probe 0 = some k := by
    have hg' := hg
    unfold partG at hg'
    obtain ⟨k, hk, _⟩ := bind_some hg'
    exact ⟨k, hk⟩
  obtain ⟨k, hk⟩ := hk
  refine ⟨valMu probe t, valElbo probe t, k.2, valA probe g, ?_, ?_, (C42_Kz 0 0 probe talk 0 _).1 ?_, (C42_A 0 0 probe talk 0 _).1 ?_⟩
  · rw [C42_mu, (RightP.empty _ 0 0 probe).get_mu, ht]; rfl
  · rw [C42_elbo, (RightP.empty _ 0 0 probe).get_elbo, ht]; rfl
  · unfold getKz Mut.cached
    dsimp only
    rw [compute_eq, ht, hk]
    show Dict.put (fun _ => none) 0 (some k.2) 0 = some k.2
    exact put_same rfl _
  · unfold getA Mut.cached
    dsimp only
    rw [compute_eq, ht, hg]
    show Dict.put (fun _ => none) 0 (some (valA probe g)) 0 = some (valA probe g)
    exact put_same rfl _

/-- `C42_Kx` for this history. -/
example : ∃ K, (getKx (runOps (Event.ops talk) {}) 0 (.num [[1]]) (eye 1) 0 (keptKx 0 (.num [[1]]) (eye 1) [] talk fun _ => none)).2 = some K :=
  ⟨_, (C42_Kx 0 (.num [[1]]) (eye 1) talk 0 _).2 ⟨_, ⟨affine, 1, rfl, rfl⟩, rfl⟩⟩

/-- `C42_Kz_wrong` for a process and full noise. -/
example : ∃ K, (getKz (runOps [.gp .zero affine none none] {}) 0 0 { probe with noiseX := ⟨eye 1, false⟩ } 0 {}).2 = none ∧
    (getKz (runOps [.gp .zero affine none none] {}) 0 0 { probe with noiseX := ⟨eye 1, false⟩ } 0
      (getKz (runOps [.gp .zero affine none none] {}) 0 0 { probe with noiseX := ⟨eye 1, false⟩ } 0 {}).1).2 = some K :=
  ⟨_, C42_Kz_wrong 0 0 { probe with noiseX := ⟨eye 1, false⟩ } 0 ⟨affine, 1, rfl, rfl⟩ ⟨affine, 1, rfl, rfl⟩ rfl rfl⟩

end Stheno
