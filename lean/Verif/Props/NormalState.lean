import Verif.NormalState
import Verif.Props.Diag
import Verif.Props.Normal

/-!
# Lazy normals do not depend on the order of accesses: C34
-/

namespace Stheno

/-- The mean as a column: the number `0` stands for as many zeros as the variance has rows. -/
def MeanVal.column (V : Mat) : MeanVal → MeanVal
  | .zero => .col (List.replicate V.r 0)
  | m => m

/-- The functions construct the mean `μ`, the variance `V` and its diagonal, separately or together. -/
structure Ctors.Construct (c : Ctors) (μ : MeanVal) (V : Mat) : Prop where
  mean : c.mean = some μ
  var : c.var = some V
  varDiag : ∀ f, c.varDiag = some f → f = some V.diagonal
  meanVar : ∀ f, c.meanVar = some f → f = some (μ, V)
  meanVarDiag : ∀ f, c.meanVarDiag = some f → f = some (μ, V.diagonal)

/-- What is known about the attributes of normals with mean `μ` and variance `V`. -/
structure NState.Ok (c : Ctors) (μ : MeanVal) (V : Mat) (s : NState) : Prop where
  mean : match s.mean with
    | none => c.mean = some μ
    | some m => m = μ ∨ (μ.isNumber ∧ m = .col (List.replicate V.r 0) ∧ s.meanIsZero = some true)
  flag : ∀ b, s.meanIsZero = some b → b = μ.isZero
  var : match s.var with
    | none => c.var = some V
    | some v => v = V
  diag : match s.varDiag with
    | none => ∀ f, c.varDiag = some f → f = some V.diagonal
    | some d => d = V.diagonal
  meanVar : s.mean = none → s.var = none → ∀ f, c.meanVar = some f → f = some (μ, V)
  meanVarDiag : s.mean = none → s.varDiag = none → ∀ f, c.meanVarDiag = some f → f = some (μ, V.diagonal)
  nMean : s.nMean + s.nMeanVar + s.nMeanVarDiag ≤ if s.mean.isSome then 1 else 0
  nVar : s.nVar + s.nMeanVar ≤ if s.var.isSome then 1 else 0
  nVarDiag : s.nVarDiag + s.nMeanVarDiag ≤ if s.varDiag.isSome then 1 else 0

namespace NState.Ok
variable {c : Ctors} {μ : MeanVal} {V : Mat} {s : NState}

theorem lazy (h : c.Construct μ V) : Ok c μ V NState.lazy :=
  ⟨h.mean, fun b hb => (by cases hb), h.var, h.varDiag, fun _ _ => h.meanVar, fun _ _ => h.meanVarDiag, le_rfl, le_rfl, le_rfl⟩

theorem eager (hc : c.varDiag = none) : Ok c μ V (NState.eager μ V) :=
  ⟨.inl rfl, fun b hb => (by cases hb), rfl, fun f hf => (by rw [hc] at hf; cases hf), fun h => (by cases h), fun h => (by cases h),
    Nat.zero_le _, Nat.zero_le _, le_rfl⟩

/-- The variance is resolved. -/
theorem resolveVar (h : Ok c μ V s) : ∃ s', NState.resolveVar c s = (some (), s') ∧ Ok c μ V s' ∧ s'.var = some V ∧
    s'.mean = s.mean ∧ s'.meanIsZero = s.meanIsZero ∧ s'.varDiag = s.varDiag := by
  cases hv : s.var with
  | some v =>
    have := h.var
    rw [hv] at this
    subst this
    exact ⟨s, by simp [NState.resolveVar, hv, bind, NM.read, pure], h, hv, rfl, rfl, rfl⟩
  | none =>
    have hc := h.var
    rw [hv] at hc
    refine ⟨{ s with var := some V, nVar := s.nVar + 1 }, ?_, ?_, rfl, rfl, rfl, rfl⟩
    · simp [NState.resolveVar, hv, hc, bind, NM.read, NM.give, NM.change]
    · have hn := h.nVar
      rw [hv] at hn
      exact { h with var := rfl, meanVar := fun _ h => (by cases h), nVar := by simp at hn ⊢; omega }

theorem getVar (h : Ok c μ V s) : ∃ s', NState.getVar c s = (some V, s') ∧ Ok c μ V s' ∧ s'.var = some V ∧
    s'.mean = s.mean ∧ s'.meanIsZero = s.meanIsZero ∧ s'.varDiag = s.varDiag := by
  obtain ⟨s', e, h', hv, h1⟩ := h.resolveVar
  refine ⟨s', ?_, h', hv, h1⟩
  simp [NState.getVar, bind, e, NM.read, NM.give, hv]

/-- The first two steps of `_resolve_mean`. -/
theorem meanSteps (h : Ok c μ V s) : ∃ s', (∀ z, NState.resolveMean c z s = (if s'.mean.any MeanVal.isNumber && z then
      (do
        let v ← NState.getVar c
        NM.change fun s => { s with mean := some (.col (List.replicate v.r 0)) } : NM Unit) s'
      else (some (), s'))) ∧ Ok c μ V s' ∧
    (s'.mean = some μ ∨ μ.isNumber ∧ s'.mean = some (.col (List.replicate V.r 0))) ∧
    s'.meanIsZero = some μ.isZero ∧ s'.var = s.var ∧ s'.varDiag = s.varDiag := by
  cases hm : s.mean with
  | none =>
    have hc := h.mean
    rw [hm] at hc
    refine ⟨{ s with mean := some μ, meanIsZero := some μ.isZero, nMean := s.nMean + 1 }, fun z => ?_, ?_, .inl rfl, rfl, rfl, rfl⟩
    · cases hf : s.meanIsZero with
      | none =>
        cases z <;> cases hb : μ.isNumber <;> simp [NState.resolveMean, hm, hc, hf, hb, bind, NM.read, NM.give, NM.change, pure]
      | some b =>
        have := h.flag b hf
        subst this
        cases z <;> cases hb : μ.isNumber <;> simp [NState.resolveMean, hm, hc, hf, hb, bind, NM.read, NM.give, NM.change, pure]
    · have hn := h.nMean
      rw [hm] at hn
      refine { h with mean := .inl rfl, flag := fun b hb => (Option.some.inj hb).symm, meanVar := fun h => (by cases h),
                      meanVarDiag := fun h => (by cases h), nMean := by simp at hn ⊢; omega }
  | some m =>
    have hc := h.mean
    rw [hm] at hc
    have hm' : s.mean = some μ ∨ μ.isNumber ∧ s.mean = some (.col (List.replicate V.r 0)) := by
      rcases hc with rfl | ⟨h1, h2, -⟩
      · exact .inl hm
      · exact .inr ⟨h1, by rw [hm, h2]⟩
    cases hf : s.meanIsZero with
    | some b =>
      have := h.flag b hf
      subst this
      refine ⟨s, fun z => ?_, h, hm', hf, rfl, rfl⟩
      cases z <;> cases hb : m.isNumber <;> simp [NState.resolveMean, hm, hf, hb, bind, NM.read, NM.change, pure]
    | none =>
      have hmu : m = μ := by
        rcases hc with h | ⟨-, -, h⟩
        · exact h
        · rw [hf] at h; cases h
      subst hmu
      refine ⟨{ s with meanIsZero := some m.isZero }, fun z => ?_, ?_, .inl hm, rfl, rfl, rfl⟩
      · cases z <;> cases hb : m.isNumber <;> simp [NState.resolveMean, hm, hf, hb, bind, NM.read, NM.change, pure]
      · exact { h with mean := by show (match s.mean with | none => _ | some _ => _); rw [hm]; exact .inl rfl,
                       flag := fun b hb => (Option.some.inj hb).symm }

/-- `_resolve_mean` without constructing zeros. -/
theorem resolveMeanFalse (h : Ok c μ V s) : ∃ s', NState.resolveMean c false s = (some (), s') ∧ Ok c μ V s' ∧ s'.meanIsZero = some μ.isZero := by
  obtain ⟨s', e, h', -, h1, -⟩ := h.meanSteps
  exact ⟨s', by rw [e]; simp, h', h1⟩

/-- `_resolve_mean` constructing zeros. -/
theorem resolveMeanTrue (h : Ok c μ V s) : ∃ s', NState.resolveMean c true s = (some (), s') ∧ Ok c μ V s' ∧ s'.mean = some (μ.column V) ∧
    (s.var = some V → s'.var = some V) ∧ s'.varDiag = s.varDiag := by
  obtain ⟨s1, e, h', hm, hf, hv, hd⟩ := h.meanSteps
  by_cases hn : s1.mean.any MeanVal.isNumber
  · rcases hm with hm | ⟨-, hm⟩
    · rw [hm] at hn
      cases μ with
      | zero =>
        obtain ⟨s2, e2, h2, hv2, hm2, hf2, hd2⟩ := h'.getVar
        refine ⟨{ s2 with mean := some (.col (List.replicate V.r 0)) }, ?_, ?_, rfl, fun _ => hv2, hd2.trans hd⟩
        · rw [e, hm]
          simp [MeanVal.isNumber, bind, e2, NM.change]
        · have h3 := h2.nMean
          refine { h2 with mean := .inr ⟨rfl, rfl, hf2.trans hf⟩, meanVar := fun h => (by cases h), meanVarDiag := fun h => (by cases h),
                           nMean := ?_ }
          rw [hm2, hm] at h3
          exact h3
      | zeroMat n => cases hn
      | col xs => cases hn
    · rw [hm] at hn; cases hn
  · refine ⟨s1, by rw [e]; simp [hn], h', ?_, fun h => hv.trans h, hd⟩
    rcases hm with hm | ⟨hn', hm⟩
    · rw [hm] at hn ⊢
      cases μ with
      | zero => exact absurd rfl hn
      | zeroMat n => rfl
      | col xs => rfl
    · cases μ with
      | zero => exact hm
      | zeroMat n => cases hn'
      | col xs => cases hn'

theorem getMean (h : Ok c μ V s) : ∃ s', NState.getMean c s = (some (μ.column V), s') ∧ Ok c μ V s' ∧ s'.mean = some (μ.column V) ∧
    (s.var = some V → s'.var = some V) ∧ s'.varDiag = s.varDiag := by
  obtain ⟨s', e, h', hm, h1⟩ := h.resolveMeanTrue
  exact ⟨s', by simp [NState.getMean, bind, e, NM.read, NM.give, hm], h', hm, h1⟩

theorem getMeanIsZero (h : Ok c μ V s) : ∃ s', NState.getMeanIsZero c s = (some μ.isZero, s') ∧ Ok c μ V s' := by
  obtain ⟨s', e, h', hm⟩ := h.resolveMeanFalse
  exact ⟨s', by simp [NState.getMeanIsZero, bind, e, NM.read, NM.give, hm], h'⟩

theorem getVarDiag (h : Ok c μ V s) : ∃ s', NState.getVarDiag c s = (some V.diagonal, s') ∧ Ok c μ V s' := by
  cases hd : s.varDiag with
  | some d =>
    have := h.diag
    rw [hd] at this
    subst this
    exact ⟨s, by simp [NState.getVarDiag, NState.resolveVarDiag, hd, bind, NM.read, NM.give, pure], h⟩
  | none =>
    have hc := h.diag
    rw [hd] at hc
    cases hcd : c.varDiag with
    | some f =>
      have := hc f hcd
      subst this
      refine ⟨{ s with varDiag := some V.diagonal, nVarDiag := s.nVarDiag + 1 }, ?_, ?_⟩
      · simp [NState.getVarDiag, NState.resolveVarDiag, hd, hcd, bind, NM.read, NM.give, NM.change]
      · have hn := h.nVarDiag
        rw [hd] at hn
        exact { h with diag := rfl, meanVarDiag := fun _ h => (by cases h), nVarDiag := by simp at hn ⊢; omega }
    | none =>
      obtain ⟨s', e, h', -, h2, h3, h4⟩ := h.getVar
      refine ⟨{ s' with varDiag := some V.diagonal }, ?_, ?_⟩
      · simp [NState.getVarDiag, NState.resolveVarDiag, hd, hcd, bind, NM.read, NM.give, NM.change, e]
      · have hn := h'.nVarDiag
        rw [h4, hd] at hn
        exact { h' with diag := rfl, meanVarDiag := fun _ h => (by cases h), nVarDiag := by simp at hn ⊢; omega }

theorem column_of (hμ : μ.isNumber = false) : μ.column V = μ := by
  cases μ with
  | zero => cases hμ
  | zeroMat n => rfl
  | col xs => rfl

theorem mean_some (h : Ok c μ V s) (hμ : μ.isNumber = false) {m : MeanVal} (hm : s.mean = some m) : m = μ := by
  have := h.mean
  rw [hm] at this
  rcases this with h | ⟨h, -⟩
  · exact h
  · rw [hμ] at h; cases h

theorem var_some (h : Ok c μ V s) {v : Mat} (hv : s.var = some v) : v = V := by
  have := h.var
  rwa [hv] at this

theorem diag_some (h : Ok c μ V s) {d : List ℝ} (hd : s.varDiag = some d) : d = V.diagonal := by
  have := h.diag
  rwa [hd] at this

theorem mean_cases (h : Ok c μ V s) {m : MeanVal} (hm : s.mean = some m) : m = μ ∨ m = μ.column V := by
  have := h.mean
  rw [hm] at this
  rcases this with h | ⟨h, e, -⟩
  · exact .inl h
  · cases μ with
    | zero => exact .inr e
    | zeroMat n => cases h
    | col xs => cases h

theorem getMeanVar (h : Ok c μ V s) : ∃ m s', NState.getMeanVar c s = (some (m, V), s') ∧ Ok c μ V s' ∧ (m = μ ∨ m = μ.column V) := by
  cases hm : s.mean with
  | some m =>
    have e1 := h.mean_cases hm
    cases hv : s.var with
    | some v =>
      have e2 := h.var_some hv
      subst e2
      exact ⟨m, s, by simp [NState.getMeanVar, bind, NM.read, hm, hv, pure], h, e1⟩
    | none =>
      obtain ⟨s', e, h', -⟩ := h.getVar
      exact ⟨m, s', by simp [NState.getMeanVar, bind, NM.read, hm, hv, pure, e], h', e1⟩
  | none =>
    cases hv : s.var with
    | some v =>
      have e2 := h.var_some hv
      subst e2
      obtain ⟨s', e, h', -⟩ := h.getMean
      exact ⟨_, s', by simp [NState.getMeanVar, bind, NM.read, hm, hv, pure, e], h', .inr rfl⟩
    | none =>
      cases hc : c.meanVar with
      | none =>
        obtain ⟨s1, e1, h1, -⟩ := h.getMean
        obtain ⟨s2, e2, h2, -⟩ := h1.getVar
        exact ⟨_, s2, by simp [NState.getMeanVar, bind, NM.read, hm, hv, hc, pure, e1, e2], h2, .inr rfl⟩
      | some f =>
        have hf := h.meanVar hm hv f hc
        subst hf
        have h0 : Ok c μ V { s with mean := some μ, var := some V, nMeanVar := s.nMeanVar + 1 } := by
          have hn := h.nMean
          have hn2 := h.nVar
          rw [hm] at hn
          rw [hv] at hn2
          exact { h with mean := .inl rfl, var := rfl, meanVar := fun h => (by cases h), meanVarDiag := fun h => (by cases h),
                         nMean := by simp at hn ⊢; omega, nVar := by simp at hn2 ⊢; omega }
        obtain ⟨s1, e1, h1, -⟩ := h0.resolveMeanTrue
        obtain ⟨s2, e2, h2, -⟩ := h1.resolveVar
        obtain ⟨s3, e3, h3, -⟩ := h2.getMean
        obtain ⟨s4, e4, h4, -⟩ := h3.getVar
        exact ⟨_, s4, by simp [NState.getMeanVar, bind, NM.read, NM.give, NM.change, hm, hv, hc, pure, e1, e2, e3, e4], h4, .inr rfl⟩

theorem squeeze (hμ : μ.isNumber = false) : NState.squeeze μ = some μ.entries := by
  cases μ with
  | zero => cases hμ
  | zeroMat n => rfl
  | col xs => rfl

/-- The end of `marginals`. -/
noncomputable def margs (m : MeanVal) (V : Mat) : Option (List ℝ × List ℝ) := (NState.squeeze m).map fun m => (m, V.diagonal.map (max · 0))

theorem getMarginals (h : Ok c μ V s) : ∃ m s', NState.getMarginals c s = (margs m V, s') ∧ Ok c μ V s' ∧ (m = μ ∨ m = μ.column V) := by
  cases hm : s.mean with
  | some m =>
    have e1 := h.mean_cases hm
    cases hd : s.varDiag with
    | some d =>
      have e2 := h.diag_some hd
      subst e2
      refine ⟨m, s, ?_, h, e1⟩
      cases hs : NState.squeeze m <;> simp [NState.getMarginals, bind, NM.read, NM.give, hm, hd, hs, pure, margs]
    | none =>
      obtain ⟨s', e, h'⟩ := h.getVarDiag
      refine ⟨m, s', ?_, h', e1⟩
      cases hs : NState.squeeze m <;> simp [NState.getMarginals, bind, NM.read, NM.give, hm, hd, hs, pure, margs, e]
  | none =>
    cases hd : s.varDiag with
    | some d =>
      have e2 := h.diag_some hd
      subst e2
      obtain ⟨s', e, h', -⟩ := h.getMean
      refine ⟨_, s', ?_, h', .inr rfl⟩
      cases hs : NState.squeeze (μ.column V) <;> simp [NState.getMarginals, bind, NM.read, NM.give, hm, hd, hs, pure, margs, e]
    | none =>
      cases hc : c.meanVarDiag with
      | none =>
        obtain ⟨s1, e1, h1, -⟩ := h.getMean
        obtain ⟨s2, e2, h2⟩ := h1.getVarDiag
        refine ⟨_, s2, ?_, h2, .inr rfl⟩
        cases hs : NState.squeeze (μ.column V) <;> simp [NState.getMarginals, bind, NM.read, NM.give, hm, hd, hc, hs, pure, margs, e1, e2]
      | some f =>
        have hf := h.meanVarDiag hm hd f hc
        subst hf
        have h0 : Ok c μ V { s with mean := some μ, varDiag := some V.diagonal, nMeanVarDiag := s.nMeanVarDiag + 1 } := by
          have hn := h.nMean
          have hn2 := h.nVarDiag
          rw [hm] at hn
          rw [hd] at hn2
          exact { h with mean := .inl rfl, diag := rfl, meanVar := fun h => (by cases h), meanVarDiag := fun h => (by cases h),
                         nMean := by simp at hn ⊢; omega, nVarDiag := by simp at hn2 ⊢; omega }
        obtain ⟨s1, e1, h1, -⟩ := h0.resolveMeanTrue
        obtain ⟨s3, e3, h3, -⟩ := h1.getMean
        obtain ⟨s4, e4, h4⟩ := h3.getVarDiag
        refine ⟨_, s4, ?_, h4, .inr rfl⟩
        cases hs : NState.squeeze (μ.column V) <;>
          simp [NState.getMarginals, bind, NM.read, NM.give, NM.change, hm, hd, hc, hs, pure, margs, e1, e3, e4]

end NState.Ok

/-! ## The theorems -/

/-- What is there to see of a normal with mean `μ`, given as a column, and variance `V`. -/
noncomputable def MeanVal.seen (μ : MeanVal) (V : Mat) : Access → Seen
  | .mean => .mean μ
  | .meanIsZero => .meanIsZero μ.isZero
  | .var => .var V
  | .varDiag => .varDiag ((List.range V.r).map fun i => V.e i i)
  | .meanVar => .meanVar μ V
  | .marginals => .marginals (μ.entries) ((List.range V.r).map fun i => max (V.e i i) 0)

/-- What there is to see if the mean may be the number `0`: it is seen as a column of zeros. -/
noncomputable def Seeing (μ : MeanVal) (V : Mat) (a : Access) : Seen :=
  match μ, a with
  | .zero, .meanIsZero => .meanIsZero true
  | .zero, a => (MeanVal.col (List.replicate V.r 0)).seen V a
  | μ, a => μ.seen V a

/-- The two accesses that are not reliable for the number `0`. -/
def Access.together : Access → Bool
  | .meanVar | .marginals => true
  | _ => false

theorem map_run {α β : Type} (f : α → β) (x : NM α) (s : NState) : (f <$> x) s = ((x s).1.map f, (x s).2) := by
  show (match x s with | (some a, s') => _ | (none, s') => _) = _
  rcases x s with ⟨_ | a, s'⟩ <;> rfl

theorem access_ok {c : Ctors} {μ : MeanVal} {V : Mat} {s : NState} (h : s.Ok c μ V) (a : Access) : ∃ r s', a.run c s = (r, s') ∧ s'.Ok c μ V ∧
    ((μ.isNumber = false ∨ a.together = false) → r = some (Seeing μ V a)) := by
  have hcol : Seeing μ V .mean = .mean (μ.column V) := by cases μ <;> rfl
  cases a with
  | mean =>
    obtain ⟨s', e, h', -⟩ := h.getMean
    exact ⟨_, s', by rw [Access.run, map_run, e], h', fun _ => by rw [hcol]; rfl⟩
  | meanIsZero =>
    obtain ⟨s', e, h'⟩ := h.getMeanIsZero
    exact ⟨_, s', by rw [Access.run, map_run, e], h', fun _ => by cases μ <;> rfl⟩
  | var =>
    obtain ⟨s', e, h', -⟩ := h.getVar
    exact ⟨_, s', by rw [Access.run, map_run, e], h', fun _ => by cases μ <;> rfl⟩
  | varDiag =>
    obtain ⟨s', e, h'⟩ := h.getVarDiag
    exact ⟨_, s', by rw [Access.run, map_run, e], h', fun _ => by cases μ <;> rfl⟩
  | meanVar =>
    obtain ⟨m, s', e, h', hm⟩ := h.getMeanVar
    refine ⟨_, s', by rw [Access.run, map_run, e], h', fun hc => ?_⟩
    rcases hc with hc | hc
    · rw [NState.Ok.column_of hc, or_self] at hm
      rw [hm]
      cases μ with
      | zero => cases hc
      | zeroMat n => rfl
      | col xs => rfl
    · cases hc
  | marginals =>
    obtain ⟨m, s', e, h', hm⟩ := h.getMarginals
    refine ⟨_, s', by rw [Access.run, map_run, e], h', fun hc => ?_⟩
    rcases hc with hc | hc
    · rw [NState.Ok.column_of hc, or_self] at hm
      rw [hm]
      cases μ with
      | zero => cases hc
      | zeroMat n => simp [NState.Ok.margs, NState.squeeze, Mat.diagonal, Seeing, MeanVal.seen, MeanVal.entries]
      | col xs => simp [NState.Ok.margs, NState.squeeze, Mat.diagonal, Seeing, MeanVal.seen, MeanVal.entries]
    · cases hc

/-- What a client gets if all its looks show the mean and the variance. -/
noncomputable def Client.ideal {α : Type} (μ : MeanVal) (V : Mat) : Client α → Option α
  | .stop r => r
  | .look a k => (k (some (Seeing μ V a))).ideal μ V

/-- The client does not look at the mean together with the variance (`mean_var` and `marginals`) in one access. -/
def Client.Separate {α : Type} : Client α → Prop
  | .stop _ => True
  | .look a k => a.together = false ∧ ∀ r, (k r).Separate

/-- Every client leaves the normal in order. -/
theorem client_ok {α : Type} {c : Ctors} {μ : MeanVal} {V : Mat} : ∀ (k : Client α) {s : NState}, s.Ok c μ V → (k.run c s).2.Ok c μ V
  | .stop _, _, h => h
  | .look a k, s, h => by
    obtain ⟨r, s', e, h', -⟩ := access_ok h a
    show (((k (a.run c s).1).run c (a.run c s).2).2).Ok c μ V
    rw [e]
    exact client_ok (k r) h'

theorem client_ideal {α : Type} {c : Ctors} {μ : MeanVal} {V : Mat} : ∀ (k : Client α) {s : NState}, s.Ok c μ V →
    (μ.isNumber = false ∨ k.Separate) → (k.run c s).1 = k.ideal μ V
  | .stop _, _, _, _ => rfl
  | .look a k, s, h, hk => by
    obtain ⟨r, s', e, h', hr⟩ := access_ok h a
    show ((k (a.run c s).1).run c (a.run c s).2).1 = _
    rw [e]
    rw [hr (hk.imp_right fun hk => hk.1)]
    exact client_ideal _ h' (hk.imp_right fun hk => hk.2 _)

theorem run_andThen {α β : Type} {c : Ctors} : ∀ (j : Client α) (k : Option α → Client β) (s : NState),
    (j.andThen k).run c s = (k (j.run c s).1).run c (j.run c s).2
  | .stop _, _, _ => rfl
  | .look a f, k, s => by
    show ((f (a.run c s).1).andThen k).run c (a.run c s).2 = _
    rw [run_andThen]
    rfl

/-- A normal with mean `μ` and variance `V`, lazy or not, before anything was done with it. -/
inductive NState.Made (μ : MeanVal) (V : Mat) : Ctors → NState → Prop
  | lazy {c : Ctors} (h : c.Construct μ V) : NState.Made μ V c NState.lazy
  | eager {c : Ctors} (h : c.varDiag = none) : NState.Made μ V c (NState.eager μ V)

theorem NState.Made.ok {c : Ctors} {μ : MeanVal} {V : Mat} {s : NState} (h : NState.Made μ V c s) : s.Ok c μ V := by
  cases h with
  | lazy h => exact .lazy h
  | eager h => exact .eager h

/-- **C34.** Whatever was done with a normal before, everything that is then done with it gives the result that the mean and the variance
give. If the mean is the number `0`, this is so for everything but `mean_var` and `marginals`. -/
theorem C34_history {α β : Type} {c : Ctors} {μ : MeanVal} {V : Mat} {s : NState} (h : NState.Made μ V c s) (before : Client α) (k : Client β)
    (hk : μ.isNumber = false ∨ k.Separate) : ((before.andThen fun _ => k).run c s).1 = k.ideal μ V := by
  rw [run_andThen]
  exact client_ideal k (client_ok before h.ok) hk

/-- **C34.** Whatever is done with a normal, the mean is constructed at most once, and so are the variance and its diagonal. -/
theorem C34_once {α : Type} {c : Ctors} {μ : MeanVal} {V : Mat} {s : NState} (h : NState.Made μ V c s) (k : Client α) :
    (k.run c s).2.nMean + (k.run c s).2.nMeanVar + (k.run c s).2.nMeanVarDiag ≤ 1 ∧ (k.run c s).2.nVar + (k.run c s).2.nMeanVar ≤ 1 ∧
    (k.run c s).2.nVarDiag + (k.run c s).2.nMeanVarDiag ≤ 1 := by
  have h' := client_ok k h.ok
  refine ⟨h'.nMean.trans ?_, h'.nVar.trans ?_, h'.nVarDiag.trans ?_⟩ <;> split <;> simp

/-- A client that looks once. -/
def Client.once (a : Access) : Client Seen := .look a .stop

/-- **A defect**: `mean_var` of a normal whose mean is the number `0` depends on what was done before, and `marginals` raises or does not
depending on what was done before. -/
theorem C34_number_zero : ∃ (c : Ctors) (V : Mat), c.Construct .zero V ∧
    (∃ V, ((Client.once .meanVar).run c NState.lazy).1 = some (.meanVar (.col [0]) V)) ∧
    (∃ V, (((Client.once .meanIsZero).andThen fun _ => Client.once .meanVar).run c NState.lazy).1 = some (.meanVar .zero V)) ∧
    (∃ d, ((Client.once .marginals).run c NState.lazy).1 = some (.marginals [0] d)) ∧
    (((Client.once .meanIsZero).andThen fun _ => Client.once .marginals).run c NState.lazy).1 = none := by
  refine ⟨⟨some .zero, some ⟨1, 1, fun _ _ => 1⟩, none, none, none⟩, ⟨1, 1, fun _ _ => 1⟩, ⟨rfl, rfl, ?_, ?_, ?_⟩, ⟨_, rfl⟩, ⟨_, rfl⟩, ⟨_, rfl⟩, rfl⟩ <;>
    intro f hf <;> cases hf

/-- **C34, methods.** After anything, methods compute with the mean and the variance. -/
theorem C34_varMean {α β : Type} {c : Ctors} {μ : MeanVal} {V : Mat} {s : NState} (h : NState.Made μ V c s) (before : Client β)
    (f : MeanVal → Mat → α) : ((before.andThen fun _ => Client.varMean f).run c s).1 = some (f (μ.column V) V) := by
  refine (C34_history h before _ (.inr ?_)).trans ?_
  rotate_left
  · cases μ <;> rfl
  refine ⟨rfl, fun r => ?_⟩
  · rcases r with _ | r
    · trivial
    · cases r <;> first | trivial | exact ⟨rfl, fun r => by rcases r with _ | r <;> [trivial; (cases r <;> trivial)]⟩

/-- **C34, diagonalise.** -/
theorem C34_diagonalise {β : Type} {c : Ctors} {μ : MeanVal} {V : Mat} {s : NState} (h : NState.Made μ V c s) (before : Client β) :
    ((before.andThen fun _ => Client.diagonalise).run c s).1 = some (μ.column V, (List.range V.r).map fun i => V.e i i) := by
  refine (C34_history h before _ (.inr ?_)).trans ?_
  rotate_left
  · cases μ <;> rfl
  refine ⟨rfl, fun r => ?_⟩
  · rcases r with _ | r
    · trivial
    · cases r <;> first | trivial | exact ⟨rfl, fun r => by rcases r with _ | r <;> [trivial; (cases r <;> trivial)]⟩

/-- **C34, bounds.** -/
theorem C34_bounds {β : Type} {c : Ctors} {μ : MeanVal} {V : Mat} {s : NState} (h : NState.Made μ V c s) (before : Client β)
    (hμ : μ.isNumber = false) (hl : μ.entries.length = V.r) : ∃ m lo hi, ((before.andThen fun _ => Client.bounds).run c s).1 = some (m, lo, hi) ∧
    ∀ i : Fin V.r, m[i]? = some ((asNormal μ V).bounds.1 i) ∧ lo[i]? = some ((asNormal μ V).bounds.2.1 i) ∧
      hi[i]? = some ((asNormal μ V).bounds.2.2 i) := by
  have e := C34_history h before Client.bounds (.inl hμ)
  have e2 : Client.bounds.ideal μ V = some (μ.entries,
      List.zipWith (fun a b => a - 1.96 * √b) μ.entries ((List.range V.r).map fun i => max (V.e i i) 0),
      List.zipWith (fun a b => a + 1.96 * √b) μ.entries ((List.range V.r).map fun i => max (V.e i i) 0)) := by
    cases μ with
    | zero => cases hμ
    | zeroMat n => rfl
    | col xs => rfl
  refine ⟨_, _, _, e.trans e2, fun i => ?_⟩
  have hi : (i : ℕ) < μ.entries.length := by rw [hl]; exact i.2
  have hm : μ.entries[(i : ℕ)]? = some (μ.entries.getD i 0) := by
    rw [List.getD_eq_getElem?_getD, List.getElem?_eq_getElem hi]
    rfl
  have hd : ((List.range V.r).map fun i => max (V.e i i) 0)[(i : ℕ)]? = some (max (V.e i i) 0) := by
    simp
  refine ⟨hm, ?_, ?_⟩
  · simp only [Fin.getElem?_fin, List.getElem?_zipWith, hm, hd]
    rfl
  · simp only [Fin.getElem?_fin, List.getElem?_zipWith, hm, hd]
    rfl

/-- A mean that is recognised as zero is zero. -/
theorem column_isZero {μ : MeanVal} {V : Mat} (h : μ.isZero = true) : (asNormal (μ.column V) V).mean = 0 := by
  cases μ with
  | zero =>
    funext i
    show (List.replicate V.r (0 : ℝ)).getD i 0 = 0
    rw [List.getD_eq_getElem?_getD, List.getElem?_replicate]
    split <;> rfl
  | zeroMat n =>
    funext i
    show (List.replicate n (0 : ℝ)).getD i 0 = 0
    rw [List.getD_eq_getElem?_getD, List.getElem?_replicate]
    split <;> rfl
  | col xs => cases h

/-- **C34, `mean_is_zero`.** After anything, the mean is said to be zero exactly if it is the number `0` or a matrix of type `Zero`, and
then it is a column of zeros. -/
theorem C34_mean_is_zero {β : Type} {c : Ctors} {μ : MeanVal} {V : Mat} {s : NState} (h : NState.Made μ V c s) (before : Client β) :
    ∃ b, ((before.andThen fun _ => Client.once .meanIsZero).run c s).1 = some (.meanIsZero b) ∧
      (b = true ↔ μ = .zero ∨ ∃ n, μ = .zeroMat n) ∧ (b = true → (asNormal (μ.column V) V).mean = 0) := by
  have hs : (Client.once .meanIsZero).Separate := ⟨rfl, fun r => by rcases r with _ | r <;> trivial⟩
  refine ⟨μ.isZero, (C34_history h before _ (.inr hs)).trans ?_, ?_, column_isZero⟩
  · cases μ <;> rfl
  · cases μ <;> simp [MeanVal.isZero]

/-- **C44, C34.** After anything, samples are the samples of the normal with that mean and variance, and the mean is skipped only if it
is zero. -/
theorem C44_lazy {β : Type} {k : ℕ} {c : Ctors} {μ : MeanVal} {V : Mat} {st : NState} (h : NState.Made μ V c st) (before : Client β)
    (root : ∀ n, Matrix (Fin n) (Fin n) ℝ → Matrix (Fin n) (Fin n) ℝ) (noise : Option ℝ) (zs : ∀ n, Fin k → Fin n → ℝ) (s : Fin k) :
    ((before.andThen fun _ => Client.sample root noise zs s).run c st).1 =
      some ⟨V.r, (asNormal (μ.column V) V).sample (root V.r) μ.isZero noise (zs V.r) s⟩ ∧
    (μ.isZero = true → (asNormal (μ.column V) V).mean = 0) := by
  refine ⟨?_, column_isZero⟩
  refine (C34_history h before _ (.inr ?_)).trans ?_
  rotate_left
  · cases noise <;> cases μ <;> rfl
  refine ⟨rfl, fun r => ?_⟩
  · rcases r with _ | r
    · trivial
    · cases r with
      | var v =>
        refine ⟨rfl, fun r => ?_⟩
        rcases r with _ | r
        · trivial
        · cases r with
          | meanIsZero b =>
            cases b
            · refine ⟨rfl, fun r => ?_⟩
              rcases r with _ | r
              · trivial
              · cases r <;> trivial
            · trivial
          | _ => trivial
      | _ => trivial

/-- **C34, FDDs.** The functions of FDDs of single-output processes construct the same mean, variance and diagonal. -/
theorem C34_fdd {C : PId → Prop} {ops : List Op} {m : MId} {p : PId} {x : Input} (h : SingleOutput C ops) (hp : ¬ C p) {mean : MeanVal}
    {u : List ℝ} {K noise V : Mat} (hu : ElwiseCall (runOps ops {}) m p p x x u) (hK : KernelCall (runOps ops {}) m p p x x K)
    (hV : K.add noise = some V) : (fddCtors mean K u noise).Construct mean V := by
  obtain ⟨h1, h2, h3⟩ := C28_single h hp hp hu hK
  have hs : K.r = noise.r ∧ K.c = noise.c := by
    by_contra hne
    rw [Mat.add, if_neg hne] at hV
    cases hV
  have hV' : V = ⟨K.r, K.c, fun i j => K.e i j + noise.e i j⟩ := by
    rw [Mat.add, if_pos hs] at hV
    exact (Option.some.inj hV).symm
  have hd : addVecs u noise.diagonal = some V.diagonal := by
    have hl : u.length = noise.diagonal.length := by simp [Mat.diagonal, h1, hs.1]
    rw [addVecs, if_pos hl]
    congr 1
    refine List.ext_getElem? fun i => ?_
    rw [List.getElem?_zipWith]
    by_cases hi : i < u.length
    · have hi' : i < noise.r := by rw [← hs.1, ← h1]; exact hi
      rw [h3 i hi]
      simp [Mat.diagonal, hV', hi', hs.1]
    · have hi' : ¬ i < noise.r := by rw [← hs.1, ← h1]; exact hi
      rw [List.getElem?_eq_none (by omega : u.length ≤ i)]
      simp [Mat.diagonal, hV', hi', hs.1]
  refine ⟨rfl, hV, fun f hf => ?_, fun f hf => ?_, fun f hf => ?_⟩
  · exact (Option.some.inj hf).symm.trans hd
  · refine (Option.some.inj hf).symm.trans ?_
    show (K.add noise >>= fun V => pure (mean, V)) = _
    rw [hV]; rfl
  · refine (Option.some.inj hf).symm.trans ?_
    show (addVecs u noise.diagonal >>= fun V => pure (mean, V)) = _
    rw [hd]; rfl

/-- All accesses of a lazy normal with all functions, in some order. -/
example : ∃ (c : Ctors), c.Construct (.col [1, 2]) ⟨2, 2, fun i j => if i = j then 3 else 1⟩ ∧ c.meanVar ≠ none ∧
    (((Client.once .marginals).andThen fun _ => (Client.once .meanVar).andThen fun _ => Client.once .mean).run c NState.lazy).1 =
      some (.mean (.col [1, 2])) := by
  refine ⟨⟨some (.col [1, 2]), some ⟨2, 2, fun i j => if i = j then 3 else 1⟩, some (some (Mat.diagonal ⟨2, 2, fun i j => if i = j then 3 else 1⟩)),
    some (some (.col [1, 2], ⟨2, 2, fun i j => if i = j then 3 else 1⟩)),
    some (some (.col [1, 2], Mat.diagonal ⟨2, 2, fun i j => if i = j then 3 else 1⟩))⟩, ?_, by simp, ?_⟩
  · exact ⟨rfl, rfl, fun f hf => (Option.some.inj hf).symm, fun f hf => (Option.some.inj hf).symm, fun f hf => (Option.some.inj hf).symm⟩
  · have := C34_history (NState.Made.lazy (μ := .col [1, 2]) (V := ⟨2, 2, fun i j => if i = j then 3 else 1⟩) ⟨rfl, rfl, fun f hf => (Option.some.inj hf).symm,
      fun f hf => (Option.some.inj hf).symm, fun f hf => (Option.some.inj hf).symm⟩) (Client.once .marginals)
      ((Client.once .meanVar).andThen fun _ => Client.once .mean) (.inl rfl)
      (c := ⟨some (.col [1, 2]), some ⟨2, 2, fun i j => if i = j then 3 else 1⟩, some (some (Mat.diagonal ⟨2, 2, fun i j => if i = j then 3 else 1⟩)),
    some (some (.col [1, 2], ⟨2, 2, fun i j => if i = j then 3 else 1⟩)),
    some (some (.col [1, 2], Mat.diagonal ⟨2, 2, fun i j => if i = j then 3 else 1⟩))⟩)
    exact this

/-- An FDD of a posterior: after reading its marginals, it gives its variance, and samples. -/
example (xs : List Pt) : ∃ (u : List ℝ) (K V : Mat), KernelCall (runOps study {}) 2 3 3 (.num xs) (.num xs) K ∧ K.add (eye xs.length) = some V ∧
    (((Client.once .marginals).andThen fun _ => Client.once .var).run (fddCtors (.col (xs.map fun _ => 2)) K u (eye xs.length)) NState.lazy).1 =
      some (.var V) := by
  obtain ⟨u, K, hu, hK, lu, rK, cK, e⟩ := C28_regular study_regular (m := 2) (p := 3) (q := 3)
    (attached_iff.2 (by set_option maxRecDepth 4000 in rfl))
    (attached_iff.2 (by set_option maxRecDepth 4000 in rfl)) (rows_off (by decide)) (rows_off (by decide)) (rfl : xs.length = xs.length)
  have hV : K.add (eye xs.length) = some _ := if_pos ⟨rK, cK⟩
  exact ⟨u, K, _, hK, hV, C34_history (.lazy (C34_fdd study_regular.singleOutput (Rows.alive (xs := xs) (rows_off (by decide))) hu hK hV)) _ _ (.inl rfl)⟩

end Stheno
