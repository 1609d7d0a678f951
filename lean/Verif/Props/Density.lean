import Verif.Density
import Verif.Props.Normal

/-!
# Properties of log-densities: C36
-/

namespace Stheno

open Matrix MeasureTheory ProbabilityTheory

variable {n k : ℕ}

/-- Log-densities do not depend on how entries are numbered. -/
theorem logpdfFull_equiv (g : Normal n) (e : Fin k ≃ Fin n) (hk : k = n) (x : Fin n → ℝ) :
    (⟨g.mean ∘ e, g.var.submatrix e e⟩ : Normal k).logpdfFull (x ∘ e) = g.logpdfFull x := by
  unfold Normal.logpdfFull
  have h : (x ∘ e - g.mean ∘ e) = (x - g.mean) ∘ e := rfl
  simp only [Matrix.det_submatrix_equiv_self, Matrix.inv_submatrix_equiv, h, Matrix.submatrix_mulVec_equiv, hk]
  congr 3
  rw [Function.comp_assoc, Equiv.self_comp_symm, Function.comp_id, comp_equiv_dotProduct_comp_equiv]

/-- **C36.** The log-density of data is that of the available data under the normal of those. -/
theorem C36_missing (g : Normal n) (x : Fin n → Option ℝ) :
    g.logpdf x = (g.sub ((List.finRange n).filter fun i => (x i).isSome)).logpdfFull
      fun i => (x (((List.finRange n).filter fun i => (x i).isSome).get i)).getD 0 := by
  unfold Normal.logpdf
  by_cases h : ∀ i, (x i).isSome
  · rw [if_pos h]
    have hl : (List.finRange n).filter (fun i => (x i).isSome) = List.finRange n := List.filter_eq_self.2 fun i _ => h i
    generalize (List.finRange n).filter (fun i => (x i).isSome) = l at hl
    subst hl
    exact (logpdfFull_equiv g ((List.nodup_finRange n).getEquivOfForallMemList (List.finRange n) fun i => List.mem_finRange i)
      List.length_finRange fun i => (x i).getD 0).symm
  · rw [if_neg h]

/-- **C36.** Without missing data, `logpdf` is the logarithm of the density of the distribution. -/
theorem C36_density {Ω : Type*} [MeasurableSpace Ω] {P : Measure Ω} {X : Ω → Fin n → ℝ} {g : Normal n} (hX : IsNormal P X g)
    (hp : g.var.PosDef) :
    P.map X = (volume : Measure (Fin n → ℝ)).withDensity fun x => ENNReal.ofReal (Real.exp (g.logpdf fun i => some (x i))) := by
  rw [hX.withDensity hp]
  congr 1
  funext x
  unfold Normal.logpdf
  rw [if_pos (by simp)]
  rfl

/-- **C36.** For every pattern of missing data, `logpdf` is the logarithm of the density of the available entries. Here `fill y` is the
data column with the numbers `y` at the available positions, and NaNs elsewhere. -/
theorem C36_marginal {Ω : Type*} [MeasurableSpace Ω] {P : Measure Ω} {X : Ω → Fin n → ℝ} {g : Normal n} (hX : IsNormal P X g)
    (hp : g.var.PosDef) (available : Fin n → Bool) (is : List (Fin n)) (his : is = (List.finRange n).filter available)
    (fill : (Fin is.length → ℝ) → Fin n → Option ℝ) (h0 : ∀ y i, available i = false → fill y i = none)
    (h1 : ∀ y i, fill y (is.get i) = some (y i)) :
    P.map (fun ω i => X ω (is.get i)) =
      (volume : Measure (Fin is.length → ℝ)).withDensity fun y => ENNReal.ofReal (Real.exp (g.logpdf (fill y))) := by
  have hP := hX.isProbabilityMeasure
  have hinj : Function.Injective is.get := List.nodup_iff_injective_get.1 (his ▸ (List.nodup_finRange n).filter _)
  have hs : (g.sub is).var.PosDef := hp.submatrix hinj
  rw [((C38_sub is).2 hX).withDensity hs]
  congr 1
  funext y
  congr 2
  have hav : (List.finRange n).filter (fun i => (fill y i).isSome) = is := by
    rw [his]
    refine List.filter_congr fun i _ => ?_
    cases ha : available i with
    | false => simp [h0 y i ha]
    | true =>
      have : i ∈ is := by rw [his]; simp [ha]
      obtain ⟨j, hj⟩ := List.get_of_mem this
      rw [← hj, h1]
      rfl
  rw [C36_missing]
  generalize hl : (List.finRange n).filter (fun i => (fill y i).isSome) = l at hav
  subst hav
  congr 1
  funext i
  exact (congrArg (fun o => Option.getD o 0) (h1 y i)).symm

/-- Two numbers of which the first is missing. -/
example {Ω : Type*} [MeasurableSpace Ω] {P : Measure Ω} {X : Ω → Fin 2 → ℝ} (hX : IsNormal P X ⟨![1, 3], !![2, 1; 1, 2]⟩) :
    P.map (fun ω (_ : Fin 1) => X ω 1) = (volume : Measure (Fin 1 → ℝ)).withDensity fun y =>
      ENNReal.ofReal (Real.exp ((⟨![1, 3], !![2, 1; 1, 2]⟩ : Normal 2).logpdf ![none, some (y 0)])) := by
  have hp : (!![2, 1; 1, 2] : Matrix (Fin 2) (Fin 2) ℝ).PosDef := by
    refine posSemidef_corr.posDef_iff_det_ne_zero.2 ?_
    simp [Matrix.det_fin_two]
    norm_num
  have e : (fun ω (_ : Fin 1) => X ω 1) = fun ω (i : Fin [(1 : Fin 2)].length) => X ω ([(1 : Fin 2)].get i) := by
    funext ω i; rw [Subsingleton.elim i 0]; rfl
  rw [e]
  refine C36_marginal hX hp ![false, true] [1] rfl (fun y => ![none, some (y 0)]) (fun y i h => ?_) (fun y i => ?_)
  · fin_cases i
    · rfl
    · simp at h
  · rw [Subsingleton.elim (α := Fin 1) i 0]; rfl

/-! ## Several columns -/

/-- **C36, several columns.** There is one log-density for every column: that of the column if nothing is missing, and NaN otherwise. -/
theorem C36_columns (g : Normal n) (xs : List (Fin n → Option ℝ)) (h : xs.length ≠ 1) : ∃ ls, g.logpdfs xs = .many ls ∧ ls.length = xs.length ∧
    ∀ (j : ℕ) (x : Fin n → Option ℝ), xs[j]? = some x → ∀ l, ls[j]? = some (some l) ↔ (∀ i, x i ≠ none) ∧ g.logpdf x = l := by
  have e : g.logpdfs xs = .many (xs.map fun x => if ∀ i, (x i).isSome then some (g.logpdfFull fun i => (x i).getD 0) else none) := by
    match xs, h with
    | [], _ => rfl
    | [_], h => exact (h rfl).elim
    | _ :: _ :: _, _ => rfl
  refine ⟨_, e, List.length_map .., fun j x hx l => ?_⟩
  rw [List.getElem?_map, hx, Option.map_some, Option.some_inj]
  simp only [Option.isSome_iff_ne_none, Normal.logpdf]
  split
  · next hs => exact ⟨fun h => ⟨hs, Option.some_inj.1 h⟩, fun h => congrArg some h.2⟩
  · next hs => exact ⟨fun h => (nomatch h), fun h => (hs h.1).elim⟩

/-- **C36, one column.** For one column, a single number is returned, not a vector, also if data are missing: the logarithm of the density of
the available entries. -/
theorem C36_column {Ω : Type*} [MeasurableSpace Ω] {P : Measure Ω} {X : Ω → Fin n → ℝ} {g : Normal n} (hX : IsNormal P X g)
    (hp : g.var.PosDef) (available : Fin n → Bool) (is : List (Fin n)) (his : is = (List.finRange n).filter available)
    (fill : (Fin is.length → ℝ) → Fin n → Option ℝ) (h0 : ∀ y i, available i = false → fill y i = none)
    (h1 : ∀ y i, fill y (is.get i) = some (y i)) :
    ∃ l : (Fin is.length → ℝ) → ℝ, (∀ y, g.logpdfs [fill y] = .one (l y)) ∧ P.map (fun ω i => X ω (is.get i)) =
      (volume : Measure (Fin is.length → ℝ)).withDensity fun y => ENNReal.ofReal (Real.exp (l y)) :=
  ⟨fun y => g.logpdf (fill y), fun _ => rfl, C36_marginal hX hp available is his fill h0 h1⟩

/-- One number, and nothing is missing. -/
example {Ω : Type*} [MeasurableSpace Ω] {P : Measure Ω} {X : Ω → Fin 1 → ℝ} (hX : IsNormal P X ⟨![1], !![2]⟩) :
    ∃ l : (Fin 1 → ℝ) → ℝ, (∀ y, (⟨![1], !![2]⟩ : Normal 1).logpdfs [fun i => some (y i)] = .one (l y)) ∧ P.map (fun ω i => X ω i) =
      (volume : Measure (Fin 1 → ℝ)).withDensity fun y => ENNReal.ofReal (Real.exp (l y)) := by
  have hp : (!![2] : Matrix (Fin 1) (Fin 1) ℝ).PosDef := by
    rw [show (!![2] : Matrix (Fin 1) (Fin 1) ℝ) = Matrix.diagonal fun _ => 2 by ext i j; simp [Subsingleton.elim i 0, Subsingleton.elim j 0]]
    exact Matrix.PosDef.diagonal fun _ => by norm_num
  have := C36_column hX hp (fun _ => true) [0] rfl (fun y i => some (y i)) (fun _ _ h => by simp at h) fun y i => by
    rw [Subsingleton.elim (α := Fin 1) ([(0 : Fin 1)].get i) i]
  obtain ⟨l, h1, h2⟩ := this
  refine ⟨l, h1, ?_⟩
  refine Eq.trans ?_ h2
  show P.map _ = P.map _
  congr 1
  funext ω i
  rw [Subsingleton.elim (α := Fin 1) ([(0 : Fin 1)].get i) i]

/-- The sum of what `logpdf` returns. -/
noncomputable def Normal.Logpdfs.sum : Normal.Logpdfs → ℝ
  | .one l => l
  | .many ls => (ls.map fun l => l.getD 0).sum

theorem logpdfs_sum (g : Normal n) (x : Fin k → Fin n → ℝ) :
    (g.logpdfs (List.ofFn fun j i => some (x j i))).sum = ∑ j, g.logpdf fun i => some (x j i) := by
  have key (xs : List (Fin n → ℝ)) : (g.logpdfs (xs.map fun y i => some (y i))).sum = (xs.map fun y => g.logpdf fun i => some (y i)).sum := by
    have h1 (y : Fin n → ℝ) : g.logpdf (fun i => some (y i)) = g.logpdfFull y := by
      unfold Normal.logpdf; rw [if_pos (by simp)]; rfl
    match xs with
    | [] => rfl
    | [y] => simp [Normal.logpdfs, Normal.Logpdfs.sum]
    | y :: z :: xs =>
      simp only [Normal.logpdfs, Normal.Logpdfs.sum, List.map_cons, List.map_map, h1, Option.isSome_some, implies_true, if_true, Option.getD_some]
      congr 3
      refine List.map_congr_left fun y _ => ?_
      simp
  have := key (List.ofFn x)
  rw [List.map_ofFn, List.map_ofFn, List.sum_ofFn] at this
  exact this

/-- **C36, several columns.** The sum of the log-densities of the columns is the log-density of independent draws. -/
theorem C36_independent {Ω : Type*} [MeasurableSpace Ω] {P : Measure Ω} [IsProbabilityMeasure P] {X : Fin k → Ω → Fin n → ℝ} {g : Normal n}
    (hX : ∀ j, IsNormal P (X j) g) (hi : iIndepFun X P) (hp : g.var.PosDef) :
    P.map (fun ω j => X j ω) = (volume : Measure (Fin k → Fin n → ℝ)).withDensity fun x =>
      ENNReal.ofReal (Real.exp (g.logpdfs (List.ofFn fun j i => some (x j i))).sum) := by
  rw [(iIndepFun_iff_map_fun_eq_pi_map fun j => (hX j).gaussian.aemeasurable).1 hi]
  have e (j : Fin k) : P.map (X j) = (volume : Measure (Fin n → ℝ)).withDensity fun x => ENNReal.ofReal (Real.exp (g.logpdf fun i => some (x i))) :=
    C36_density (hX j) hp
  simp only [e]
  have (j : Fin k) : SigmaFinite ((volume : Measure (Fin n → ℝ)).withDensity fun x => ENNReal.ofReal (Real.exp (g.logpdf fun i => some (x i)))) := by
    rw [← e j]; infer_instance
  have hm : Measurable fun x : Fin n → ℝ => ENNReal.ofReal (Real.exp (g.logpdf fun i => some (x i))) := by
    simp only [Normal.logpdf, Option.isSome_some, implies_true, if_true, Option.getD_some, Normal.logpdfFull]
    exact (ENNReal.continuous_ofReal.comp (by fun_prop)).measurable
  rw [pi_withDensity (E := Fin n → ℝ) (fun _ : Fin k => fun x => ENNReal.ofReal (Real.exp (g.logpdf fun i => some (x i)))) fun _ => hm]
  congr 1
  funext x
  rw [← ENNReal.ofReal_prod_of_nonneg fun _ _ => (Real.exp_pos _).le, logpdfs_sum, Real.exp_sum]

/-- Two columns of which the second one has a missing value: the log-density of the second column is NaN. -/
example (g : Normal 2) : ∃ l, g.logpdfs [![some 1, some 2], ![none, some 3]] = .many [some l, none] ∧ l = g.logpdf ![some 1, some 2] := by
  obtain ⟨ls, h, hl, hj⟩ := C36_columns g [![some 1, some 2], ![none, some 3]] (by simp)
  match ls, hl with
  | [a, b], _ =>
    have ha := (hj 0 _ rfl (g.logpdf ![some 1, some 2])).2 ⟨fun i => by fin_cases i <;> simp, rfl⟩
    simp only [List.getElem?_cons_zero, Option.some_inj] at ha
    refine ⟨_, ?_, rfl⟩
    cases b with
    | none => rw [h, ha]
    | some b => exact (((hj 1 _ rfl b).1 rfl).1 0 rfl).elim

end Stheno
