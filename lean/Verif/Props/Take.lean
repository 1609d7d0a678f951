import Verif.Take
import Verif.Props.Fdd

/-!
# Taking a subset of a finite-dimensional distribution: C26
-/

namespace Stheno

open Matrix

section
variable {C : PId → Prop} {D : PId → ℕ} {ops : List Op} {m : MId} {mask : List Bool} {n : ℕ} {f g : Fdd}

/-- Inputs at which elements of cross processes can be taken: FDDs of single-output processes, in any measure; and numeric
inputs in the measure that `B.take` looks at. -/
def Takable (C : PId → Prop) (w : World) (m : MId) (p : PId) (x : Input) : Prop :=
  C p → x.Fdds C ∨ ((∃ xs, x = .num xs) ∧ gpMeasure w p = some m)

theorem Takable.flat {w : World} {p : PId} {x : Input} (h : Takable C w m p x) : C p → x.Flat C := by
  intro hp
  rcases h hp with h | ⟨⟨xs, rfl⟩, _⟩
  · exact h.flat
  · exact trivial

theorem Tells.kern (h : Tells C D ops) (p : PId) (k : KExpr) (hp : ¬ C p) (hk : gpKernel (runOps ops {}) p = some k) :
    k.Slim C := by
  obtain ⟨m, _, hk⟩ := bind_some hk
  exact h.slimK hp hp hk

theorem takeFdd_parts {w : World} (hg : takeFdd w n f mask = some g) : ∃ k x, gpKernel w f.p = some k ∧
    takeX (gpKernel w) n k f.x mask = some x ∧ g.p = f.p ∧ g.x = x ∧ f.noise.take mask = some g.noise := by
  obtain ⟨k, h1, hg⟩ := bind_some hg
  obtain ⟨x, h2, hg⟩ := bind_some hg
  obtain ⟨N, h3, hg⟩ := bind_some hg
  obtain ⟨k', _, hg⟩ := bind_some hg
  obtain ⟨_, _, hg⟩ := bind_some hg
  cases hg
  exact ⟨k, x, h1, h2, rfl, rfl, h3⟩

/-- The elements that are taken. -/
theorem Tells.taken (h : Tells C D ops) (hx : Takable C (runOps ops {}) m f.p f.x)
    (hg : takeFdd (runOps ops {}) n f mask = some g) (hl : mask.length = outSize C D f.p f.x) :
    (outSize C D f.p f.x = numElements f.x ∧ Sel f.x (positions mask) g.x) ∨
    ∃ m' ps xs, C f.p ∧ f.x = .num xs ∧ kernelAt (runOps ops {}) m f.p f.p = some (.mok m' ps) ∧
      Sel (.tup (ps.map (.fdd · (.num xs)))) (positions mask) g.x ∧
      outSize C D f.p f.x = numElementsL (ps.map (.fdd · (.num xs))) := by
  obtain ⟨k, x, hk, ht, _, rfl, _⟩ := takeFdd_parts hg
  by_cases hp : C f.p
  · have hb : D f.p ≠ 0 ∧ k.Broad C (D f.p) := by
      obtain ⟨m', _, hk⟩ := bind_some hk
      exact h.broadK hp hk
    have ho : outSize C D f.p f.x = broadSize (D f.p) f.x := if_pos hp
    rcases hx hp with hx | ⟨⟨xs, hx⟩, hm⟩
    · left
      rw [ho, hx.size] at hl ⊢
      exact ⟨rfl, takeX_fdds h.kern n hb.1 hb.2 hx ht hl⟩
    · rw [ho] at hl ⊢
      rw [hx] at ht hl ⊢
      rcases takeX_num h.kern n hb.1 hb.2 ht hl with ⟨m', ps, rfl, hs⟩ | ⟨e, hs⟩
      · right
        obtain ⟨m0, hm0, hk⟩ := bind_some hk
        rw [hm] at hm0
        cases hm0
        refine ⟨m', ps, xs, hp, rfl, hk, hs, ?_⟩
        have := hb.2.1
        show xs.length * D f.p = _
        rw [← this]
        clear * -
        induction ps with
        | nil => rfl
        | cons p ps ih =>
          simp only [List.map_cons, numElementsL, List.length_cons, numElements]
          rw [← ih]; ring
      · exact .inl ⟨e, hs⟩
  · left
    have ho : outSize C D f.p f.x = numElements f.x := if_neg hp
    rw [ho] at hl ⊢
    exact ⟨rfl, takeX_slim n (h.kern _ _ hp hk) ht hl⟩

/-- **C26.** The noise of `B.take(fdd, mask)` is the submatrix of the noise at the positions at which the mask is true. -/
theorem C26_noise {w : World} (hg : takeFdd w n f mask = some g) :
    g.p = f.p ∧ g.noise.r = mask.count true ∧ g.noise.c = mask.count true ∧
    ∀ i j, g.noise.e i j = f.noise.e ((positions mask).getD i 0) ((positions mask).getD j 0) := by
  obtain ⟨k, x, _, _, hp, _, hN⟩ := takeFdd_parts hg
  unfold Mat.take at hN
  split at hN
  · rw [pick_range] at hN
    have e := Option.some.inj hN
    rw [← e]
    exact ⟨hp, positions_length mask, positions_length mask, fun _ _ => rfl⟩
  · cases hN

/-- **C26.** The mean of `B.take(fdd, mask)` has the entries of the mean of `fdd` for which the mask is true. -/
theorem C26_mean (h : Tells C D ops) (hx : Takable C (runOps ops {}) m f.p f.x)
    (hg : takeFdd (runOps ops {}) n f mask = some g) {v : List ℝ} (hv : MeanCall (runOps ops {}) m f.p f.x v)
    (hl : mask.length = v.length) :
    MeanCall (runOps ops {}) m g.p g.x (((v.zip mask).filter (·.2)).map (·.1)) := by
  obtain ⟨_, _, _, _, hp, _, _⟩ := takeFdd_parts hg
  have hs := h.mean_size hx.flat hv
  rw [hp, ← pick_eq, pick_entries 0 hl.symm]
  rw [hs] at hl
  obtain ⟨a, n', ha, hv⟩ := hv
  rcases h.taken hx hg hl with ⟨e, hsel⟩ | ⟨m', ps, xs, hc, ex, hk, hsel, e⟩
  · exact ⟨a, n', ha, (ev_local n').M _ _ _ hv _ _ (.inr ⟨hs.trans e, hsel⟩)⟩
  · have : a = .mom m' ps := by
      rw [(lookups_reach ops).1] at ha
      rw [(lookups_reach ops).2] at hk
      exact spec_paired (defs_from _ ops fun b o r e m d hd => (h b o r e m d hd).1) _ _ hc hk ha
    subst this
    rw [ex] at hv
    cases n' with
    | zero => cases hv
    | succ n' => exact ⟨_, n', ha, (ev_local n').M _ _ _ hv _ _ (.inr ⟨hs.trans e, hsel⟩)⟩

/-- **C26.** The covariance matrix of `B.take(fdd, mask)` is the submatrix of the covariance matrix of `fdd` at the positions
at which the mask is true. -/
theorem C26_var (h : Tells C D ops) (hx : Takable C (runOps ops {}) m f.p f.x)
    (hg : takeFdd (runOps ops {}) n f mask = some g) {A : Mat} (hA : KernelCall (runOps ops {}) m f.p f.p f.x f.x A)
    (hl : mask.length = A.r) :
    ∃ B, KernelCall (runOps ops {}) m g.p g.p g.x g.x B ∧ B.r = mask.count true ∧ B.c = mask.count true ∧
      ∀ i < B.r, ∀ j < B.c, B.e i j = A.e ((positions mask).getD i 0) ((positions mask).getD j 0) := by
  obtain ⟨_, _, _, _, hp, _, hN⟩ := takeFdd_parts hg
  have hpos := positions_length mask
  rw [hp]
  have hs := h.kernel_size hx.flat hx.flat hA
  rw [hs.1] at hl
  obtain ⟨k, n', hk, hA⟩ := hA
  have main : ∃ B n', (ev (meanAt (runOps ops {})) (kernelAt (runOps ops {})) n').K k g.x g.x = some B ∧
      B.Eqv (A.sub2 (positions mask) (positions mask)) := by
    rcases h.taken hx hg hl with ⟨e, hsel⟩ | ⟨m', ps, xs, hc, ex, hk', hsel, e⟩
    · obtain ⟨B, hB, hE⟩ := (ev_local n').K _ _ _ _ hA _ _ (.inr ⟨hs.1.trans e, hsel⟩) _ _ (.inr ⟨hs.2.trans e, hsel⟩)
      exact ⟨B, n', hB, hE⟩
    · rw [hk'] at hk
      cases hk
      rw [ex] at hA
      cases n' with
      | zero => cases hA
      | succ n' =>
        obtain ⟨B, hB, hE⟩ := (ev_local n').K _ _ _ _ hA _ _ (.inr ⟨hs.1.trans e, hsel⟩) _ _ (.inr ⟨hs.2.trans e, hsel⟩)
        exact ⟨B, n', hB, hE⟩
  obtain ⟨B, n', hB, hE⟩ := main
  exact ⟨B, ⟨k, n', hk, hB⟩, hE.r.trans hpos, hE.c.trans hpos, fun i hi j hj => hE.e i (hE.r ▸ hi) j (hE.c ▸ hj)⟩

/-- **C26.** `B.take(fdd, mask)` does not raise for FDDs of single-output processes, if the mask and the noise have as many
elements as the inputs. -/
theorem C26_total (h : Tells C D ops) (hp : ¬ C f.p) {noise : NoiseArg} (hf : mkFdd (runOps ops {}) f.p f.x noise = some f)
    (hx : f.x.Raw) (hl : mask.length = numElements f.x) (hr : f.noise.r = mask.length) (hc : f.noise.c = mask.length) :
    ∃ N, ∀ n ≥ N, ∃ g, takeFdd (runOps ops {}) n f mask = some g := by
  obtain ⟨k, hk, hf⟩ := bind_some hf
  obtain ⟨s, hs, _⟩ := bind_some hf
  obtain ⟨N, hN⟩ := takeX_total (kern := gpKernel (runOps ops {})) (h.kern _ _ hp hk) f.x hs hx
  refine ⟨N, fun n hn => ?_⟩
  obtain ⟨y, hy⟩ := hN n hn mask hl
  obtain ⟨s', hs'⟩ := inferSize_sel (takeX_slim n (h.kern _ _ hp hk) hy hl) hs
  refine ⟨⟨f.p, y, f.noise.sub2 (positions mask) (positions mask)⟩, ?_⟩
  unfold takeFdd mkFdd
  rw [hk]
  show (takeX _ n k f.x mask).bind _ = _
  rw [hy]
  show (f.noise.take mask).bind _ = _
  rw [Mat.take_eq hr hc]
  show (inferSize k y).bind _ = _
  rw [hs']; rfl

theorem takeTup_outputs {w : World} {m' : MId} {ps qs : List PId} {xs : List Pt} (n : ℕ)
    (hps : ∀ p ∈ qs, p ∈ ps ∧ ∃ k, gpKernel w p = some k ∧ k.Slim C) : ∀ mask : List Bool, mask.length = xs.length * qs.length →
    ∃ ys, takeTup (takeX (gpKernel w) (n + 2) (.mok m' ps)) (inferSize (.mok m' ps)) (qs.map (.fdd · (.num xs))) mask = some ys ∧
      ∃ s, inferSizeL (.mok m' ps) ys = some s := by
  induction qs with
  | nil => exact fun _ _ => ⟨[], rfl, 0, rfl⟩
  | cons q qs ih =>
    intro mask hl
    rw [List.length_cons, Nat.mul_succ] at hl
    obtain ⟨hq, k, hk, hs⟩ := hps q (by simp)
    obtain ⟨ys, hy, s, hs'⟩ := ih (fun p hp => hps p (by simp [hp])) (mask.drop xs.length) (by rw [List.length_drop]; omega)
    have h1 : takeX (gpKernel w) (n + 2) (.mok m' ps) (.fdd q (.num xs)) (mask.take xs.length) = some (.fdd q (.num (pick xs (mask.take xs.length)))) := by
      have e : takeX (gpKernel w) (n + 1) k (.num xs) (mask.take xs.length) = (takeRows xs (mask.take xs.length)).bind (fun ys => pure (.num ys)) := by
        cases k <;> first | rfl | exact hs.elim
      rw [takeX, if_pos hq, hk, Option.bind_eq_bind, Option.bind_some, e, takeRows, if_pos (by rw [List.length_take]; omega)]
      rfl
    refine ⟨.fdd q (.num (pick xs (mask.take xs.length))) :: ys, ?_, ?_⟩
    · rw [List.map_cons, takeTup]
      show (takeX (gpKernel w) (n + 2) (.mok m' ps) (.fdd q (.num xs)) (mask.take xs.length)).bind _ = _
      rw [h1]
      show (takeTup _ _ _ (mask.drop xs.length)).bind _ = _
      rw [hy]
      rfl
    · exact ⟨_, by rw [inferSizeL, hs']; rfl⟩

/-- **C26, cross processes.** Elements of the FDD of a cross process of single-output processes at numeric inputs can be taken, if and only if the FDDs of
the outputs at these inputs can be made, and have one value per row. -/
theorem C26_cross (h : Tells C D ops) {m' : MId} {ps : List PId} {xs : List Pt} (hk : gpKernel (runOps ops {}) f.p = some (.mok m' ps)) (hps : ∀ p ∈ ps, ¬ C p)
    (hx : f.x = .num xs) (hl : mask.length = xs.length * ps.length) (hr : f.noise.r = mask.length) (hc : f.noise.c = mask.length) :
    (∃ n g, takeFdd (runOps ops {}) n f mask = some g) ↔
      ∀ p ∈ ps, ∃ g, mkFdd (runOps ops {}) p (.num xs) .none = some g ∧ g.noise.r = xs.length := by
  constructor
  · rintro ⟨n, g, hg⟩ p hp
    obtain ⟨k, x, hk', ht, -⟩ := takeFdd_parts hg
    rw [hk] at hk'
    cases hk'
    rw [hx] at ht
    cases n with
    | zero => cases ht
    | succ n =>
      rw [takeX] at ht
      split at ht
      · next hc =>
        obtain ⟨k, h1, h2⟩ := Option.bind_eq_some_iff.1 (hc p hp)
        exact ⟨⟨p, .num xs, ⟨xs.length, xs.length, fun _ _ => 0⟩⟩, by unfold mkFdd; simp [h1, h2, noiseAsMatrix], rfl⟩
      · cases ht
  · intro hp
    have hkern : ∀ p ∈ ps, ∃ k, gpKernel (runOps ops {}) p = some k ∧ k.Slim C ∧ inferSize k (.num xs) = some xs.length := by
      intro p hp'
      obtain ⟨g, hg, hn⟩ := hp p hp'
      obtain ⟨k, h1, hg⟩ := bind_some hg
      obtain ⟨s, h2, hg⟩ := bind_some hg
      cases hg
      exact ⟨k, h1, h.kern p k (hps p hp') h1, h2.trans (congrArg some hn)⟩
    obtain ⟨ys, hy, s, hs⟩ := takeTup_outputs (w := runOps ops {}) (m' := m') (ps := ps) (xs := xs) 0
      (fun p hp => ⟨hp, (hkern p hp).imp fun k h => ⟨h.1, h.2.1⟩⟩) mask hl
    refine ⟨4, ⟨f.p, .tup ys, f.noise.sub2 (positions mask) (positions mask)⟩, ?_⟩
    have e : takeX (gpKernel (runOps ops {})) 4 (.mok m' ps) (.num xs) mask = some (.tup ys) := by
      rw [takeX, if_pos fun p hp => ?_]
      · exact takeX_tup hy
      · obtain ⟨k, h1, -, h2⟩ := hkern p hp
        rw [h1]; exact h2
    unfold takeFdd mkFdd
    rw [hk, hx]
    show (takeX _ 4 _ (.num xs) mask).bind _ = _
    rw [e]
    show (f.noise.take mask).bind _ = _
    rw [Mat.take_eq hr hc]
    show (inferSizeL _ ys).bind _ = _
    rw [hs]; rfl

end

/-- **C26, cross processes of cross processes.** If an output of a cross process is itself a cross process of two or more, then elements cannot be taken. -/
theorem C26_cross_nested {w : World} {f : Fdd} {mask : List Bool} {m m' : MId} {ps qs : List PId} {p : PId} {xs : List Pt} (hk : gpKernel w f.p = some (.mok m ps))
    (hx : f.x = .num xs) (hp : p ∈ ps) (hq : gpKernel w p = some (.mok m' qs)) (h2 : 2 ≤ qs.length) (h1 : xs ≠ []) (n : ℕ) : takeFdd w n f mask = none := by
  cases hg : takeFdd w n f mask with
  | none => rfl
  | some g =>
    obtain ⟨k, x, hk', ht, -⟩ := takeFdd_parts hg
    rw [hk] at hk'
    cases hk'
    rw [hx] at ht
    cases n with
    | zero => cases ht
    | succ n =>
      rw [takeX] at ht
      split at ht
      · next hc =>
        have := hc p hp
        rw [hq] at this
        have e : xs.length * qs.length = xs.length := Option.some.inj this
        have : 0 < xs.length := List.length_pos_iff.2 h1
        nlinarith
      · cases ht

/-! ## Examples -/

/-- Taking three of four elements of the FDD of a GP at a nested tuple. -/
example : ∃ N, ∀ n ≥ N, ∃ g, takeFdd (runOps trial {}) n ⟨0, .tup [.num [[0], [1]], .tup [.num [[2]], .num [[3]]]], eye 4⟩
    [true, false, true, true] = some g :=
  C26_total (f := ⟨0, .tup [.num [[0], [1]], .tup [.num [[2]], .num [[3]]]], eye 4⟩) trial_tells
    (noise := .mat (eye 4)) (by decide) rfl (by simp [Input.Raw, RawL]) rfl rfl rfl

/-- What is taken. -/
example : (takeFdd (runOps trial {}) 4 ⟨0, .tup [.num [[0], [1]], .tup [.num [[2]], .num [[3]]]], eye 4⟩
    [true, false, true, true]).map (·.x) = some (.tup [.num [[0]], .tup [.num [[2]], .num [[3]]]]) := rfl

/-- The mean of the first process of `trial` at the nested tuple, and of the taken elements. -/
example {g : Fdd} (hg : takeFdd (runOps trial {}) 4 ⟨0, .tup [.num [[0], [1]], .tup [.num [[2]], .num [[3]]]], eye 4⟩
    [true, false, true, true] = some g) {v : List ℝ}
    (hv : MeanCall (runOps trial {}) 0 0 (.tup [.num [[0], [1]], .tup [.num [[2]], .num [[3]]]]) v) :
    MeanCall (runOps trial {}) 0 g.p g.x [v.getD 0 0, v.getD 2 0, v.getD 3 0] := by
  have hl : v.length = 4 := by
    rw [trial_tells.mean_size (fun h => absurd h (by decide)) hv]
    unfold outSize
    rw [if_neg (by decide)]; rfl
  have := C26_mean trial_tells (fun h => absurd h (by decide)) hg hv hl.symm
  match v, hl with
  | [a, b, c, d], _ => exact this

/-- Two of the four values of the cross process of `trial` at two numeric inputs: the first output at the second input and
the second output at the first input. -/
example : (takeFdd (runOps trial {}) 6 ⟨3, .num [[5], [6]], eye 4⟩ [false, true, true, false]).map (·.x) =
    some (.tup [.fdd 0 (.num [[6]]), .fdd 2 (.num [[5]])]) := rfl

/-- C26_var for the same. -/
example {g : Fdd} (hg : takeFdd (runOps trial {}) 6 ⟨3, .num [[5], [6]], eye 4⟩ [false, true, true, false] = some g) {A : Mat}
    (hA : KernelCall (runOps trial {}) 0 3 3 (.num [[5], [6]]) (.num [[5], [6]]) A) :
    ∃ B, KernelCall (runOps trial {}) 0 g.p g.p g.x g.x B ∧ B.r = 2 ∧ B.c = 2 ∧ B.e 0 1 = A.e 1 2 := by
  have hr : A.r = 4 := by
    have := (trial_tells.kernel_size (x := .num _) (y := .num _) (fun _ => trivial) (fun _ => trivial) hA).1
    rw [this]
    unfold outSize
    rw [if_pos (Or.inl rfl)]; rfl
  obtain ⟨B, h1, h2, h3, h4⟩ := C26_var trial_tells (fun _ => .inr ⟨⟨_, rfl⟩, rfl⟩) hg hA hr.symm
  exact ⟨B, h1, h2, h3, h4 0 (by rw [h2]; decide) 1 (by rw [h3]; decide)⟩

/-- A cross process and its posterior. -/
noncomputable def crossPost : List Op :=
  [.gp .zero affine none none,
   .cross [0, 0] [0],
   .condition 0 (.exact 0 (.num [[0]]) (eye 1) [1]),
   .call 1 1]

/-- Finding: FDDs of the posterior of a cross process at FDDs can be made, but no elements can be taken of them, not even all
elements: `_take_x` accepts FDDs only for multi-output kernels. So missing values raise an error. -/
theorem C26_posterior_cross_raises (n : ℕ) :
    (mkFdd (runOps crossPost {}) 2 (.tup [.fdd 0 (.num [[0]])]) (.scalar 1)).isSome ∧
    takeFdd (runOps crossPost {}) n ⟨2, .tup [.fdd 0 (.num [[0]])], eye 1⟩ [true] = none := by
  refine ⟨rfl, ?_⟩
  match n with
  | 0 => rfl
  | 1 => rfl
  | n + 2 => rfl

/-- C26_cross for the cross process of `trial`. -/
example : ∃ n g, takeFdd (runOps trial {}) n ⟨3, .num [[5], [6]], eye 4⟩ [false, true, true, false] = some g :=
  (C26_cross (f := ⟨3, .num [[5], [6]], eye 4⟩) (ps := [0, 2]) trial_tells rfl (by decide) rfl rfl rfl rfl).2 (by
    simp only [List.mem_cons, List.not_mem_nil, or_false, forall_eq_or_imp, forall_eq]
    exact ⟨⟨_, rfl, rfl⟩, ⟨_, rfl, rfl⟩⟩)

/-- A cross process of a cross process and a process. -/
noncomputable def nested : List Op :=
  [.gp .zero affine none none,
   .cross [0, 0] [0],
   .cross [1, 0] [0]]

/-- Finding: elements of FDDs of nested cross processes cannot be taken. -/
example (n : ℕ) (mask : List Bool) : takeFdd (runOps nested {}) n ⟨2, .num [[5]], eye 3⟩ mask = none :=
  C26_cross_nested (p := 1) (ps := [1, 0]) (qs := [0, 0]) rfl rfl (by decide) rfl (by decide) (by decide) n

end Stheno
