import Verif.Props.BatchPseudo
import Verif.Props.MorePoints

/-!
# Inference for batches

C76: log-densities of batches are computed, and what is proved about log-densities and ELBOs holds at every index of a batch.
-/

namespace Stheno

open Ten Matrix

namespace Bat

variable {G : Dom} {N : PId → ℕ} {d u : List ℕ} {ops : List BOp} {m : MId} {μ : Method} {fs : List BFdd} {l : List (BFdd × BVals)} {t : Ten ℝ} {r : Ten (Option ℝ)}

/-- How pairs of FDDs and data are given to `Obs`: `Obs(fdd, y)` or `Obs((fdd1, y1), ...)`. -/
inductive BWritten : List BArg → List (BFdd × BVals) → Prop
  | plain (f : BFdd) (y : BVals) : BWritten [.fdd f, .vals y] [(f, y)]
  | pairs (l : List (BFdd × BVals)) : BWritten (l.map bpair) l

/-- Ways to write inducing points. -/
inductive BWrittenU : BUArg → List BFdd → Prop
  | one (f : BFdd) : BWrittenU (.one f) [f]
  | many (fs : List BFdd) : BWrittenU (.many fs) fs

/-- The process `p` is attached to the measure `m`. -/
def Attached (w : BWorld) (m : MId) (p : PId) : Prop := ∃ s, w.ms[m]? = some s ∧ p ∈ s.ps

/-- Within `ops`, pseudo-observations of the pairs `l` with inducing points `fs` are made, and `m.logpdf(obs)` is `t`. Batch dimensions can be broadcast to `u`. -/
inductive LogpdfU (u : List ℕ) (ops : List BOp) (m : MId) (μ : Method) (fs : List BFdd) (l : List (BFdd × BVals)) (t : Ten ℝ) : Prop
  | mk {b0 b : List BOp} {ord ord' : List MId} {g : Bool} {us : BUArg} {as : List BArg} {os : List BOp} {o : BObs} (hu : BWrittenU us fs) (hw : BWritten as l)
      (ho : mkPseudo (runOps b0 {}) ord ord' μ g us as = some (os, o)) (h0 : b0 ++ os <+: b) (hb : b <+: ops) (hr : PseudoLogpdf (runOps b {}) m o t)
      (hs : us.Wide ∧ Fine u as ∧ o.Fits u) (au : ∀ f ∈ fs, Attached (runOps b0 {}) m f.p) (al : ∀ e ∈ l, Attached (runOps b0 {}) m e.1.p)

/-- Within `ops`, `m.logpdf` of the pairs `l` is `r`, in the notations `m.logpdf(fdd, y)` and `m.logpdf((fdd1, y1), ...)`. Batch dimensions can be broadcast to `u`. -/
inductive Logpdf (u : List ℕ) (ops : List BOp) (m : MId) (l : List (BFdd × BVals)) (r : Ten (Option ℝ)) : Prop
  | mk {b : List BOp} {ord : List MId} {as : List BArg} {os : List BOp} {f : BFdd} {y : BVals} (hw : BWritten as l) (hc : logpdfArgs (runOps b {}) ord m as = some (os, f, y))
      (hp : b ++ os <+: ops) (hr : FddLogpdf (runOps (b ++ os) {}) f y r)
      (hs : Ready as ∧ f.x.Fits u ∧ Ten.Fits f.noise.shape.tail.tail u ∧ Ten.Fits y.batch u ∧ Whole y ∧ y.ncols = 1)

/-- After the program `b`, and within `ops`, the measure `m` is conditioned on the pairs `l`, which makes the measure `m1`: `m.condition(fdd, y)`, `m.condition((fdd1, y1), ...)`, or
the same with all arguments in one tuple. Batch dimensions can be broadcast to `u`. -/
inductive Conditioned (u : List ℕ) (ops b : List BOp) (m : MId) (l : List (BFdd × BVals)) (m1 : MId) : Prop
  | mk {ord : List MId} {as args : List BArg} {os : List BOp} (hw : BWritten as l) (ha : args = as ∨ args = [.tuple as])
      (hc : conditionArgs (runOps b {}) ord m args = some os) (hp : b ++ os <+: ops) (hm : m < (runOps b {}).ms.length) (h1 : m1 + 1 = (runOps (b ++ os) {}).ms.length)
      (hl : ∀ e ∈ l, Attached (runOps b {}) m e.1.p) (hs : Fine' u args)

theorem BWritten.at {as : List BArg} (h : BWritten as l) (d : List ℕ) : Written (as.map (·.at' d)) (l.map (pairAt d)) := by
  cases h with
  | plain f y => exact .plain _ _
  | pairs l =>
    rw [bpair_at]
    exact .pairs _

theorem BWrittenU.at {us : BUArg} (h : BWrittenU us fs) (d : List ℕ) : WrittenU (us.at' d) (fs.map (·.at' d)) := by
  cases h with
  | one f => exact .one _
  | many fs => exact .many _

theorem Attached.at {b : List BOp} {p : PId} (h : Attached (runOps b {}) m p) (d : List ℕ) : Stheno.Attached (Stheno.runOps (b.map (·.at' d)) {}) m p := by
  obtain ⟨s, h1, h2⟩ := h
  rw [← C72_state]
  exact ⟨s.at' d, by simp [BWorld.at', h1], h2⟩

theorem prefix_at {a b : List BOp} (h : a <+: b) (d : List ℕ) : a.map (·.at' d) <+: b.map (·.at' d) := h.map _

/-- The ELBO at an index. -/
theorem LogpdfU.at (h : ∀ o ∈ ops, (Keep.fits u).Op o) (e : LogpdfU u ops m μ fs l t) (hd : In d u) :
    Stheno.LogpdfU (ops.map (·.at' d)) m μ (fs.map (·.at' d)) (l.map (pairAt d)) (t.get d) := by
  obtain @⟨b0, b, ord, ord', g, us, as, os, o, hu, hw, ho, h0, hb, hr, ⟨s1, s2, s3⟩, au, al⟩ := e
  have h1 := C75_make b0 0 ho s1 s2 hd
  have h2 := (C75_logpdf (fun o ho => h o (hb.subset ho)) s3 hr).2 d hd
  cases o with
  | exact _ _ _ _ => exact hr.elim
  | pseudo pu p o =>
    have hE : Event.ops ((b.map (·.at' d)).map Event.op) = b.map (·.at' d) := by
      induction b.map (·.at' d) with
      | nil => rfl
      | cons a b ih => exact congrArg (a :: ·) ih
    refine .mk (es := (b.map (·.at' d)).map .op) (pu := pu) (p := p) (o := o.at' d) ?_ ?_ ?_
    · rw [hE]
      refine .mk (hu.at d) (hw.at d) h1 ?_ ?_ ?_
      · rw [← List.map_append]
        exact prefix_at h0 d
      · intro f hf
        obtain ⟨f', hf', rfl⟩ := List.mem_map.1 hf
        exact (au f' hf').at d
      · intro e he
        obtain ⟨e', he', rfl⟩ := List.mem_map.1 he
        exact (al e' he').at d
    · rw [hE]
      exact prefix_at hb d
    · dsimp only [logpdfPseudo]
      rw [C42_elbo, hE]
      exact h2

/-- The log-density at an index. -/
theorem Logpdf.at (h : ∀ o ∈ ops, (Keep.fits u).Op o) (e : Logpdf u ops m l r) (hd : In d u) :
    ∃ r' b, Stheno.Logpdf (ops.map (·.at' d)) b m (l.map (pairAt d)) r' ∧ r.get d = some r' := by
  obtain @⟨b, ord, as, os, f, y, hw, hc, hp, hr, s1, s2, s3, s4, s5, s6⟩ := e
  obtain ⟨r', h1, h2, h3⟩ := C73_logpdf (fun o ho => h o (hp.subset (List.mem_append_left _ ho))) hc s1 s2 s3 s4 s5 s6 hr hd
  refine ⟨r', _, .direct (hw.at d) h1 ?_ h2, h3⟩
  rw [← List.map_append]
  exact prefix_at hp d

/-- Conditioning at an index. -/
theorem Conditioned.at {b : List BOp} {m1 : MId} (e : Conditioned u ops b m l m1) (hd : In d u) :
    Stheno.Conditioned (ops.map (·.at' d)) (b.map (·.at' d)) m (l.map (pairAt d)) m1 := by
  obtain @⟨ord, as, args, os, hw, ha, hc, hp, hm, h1, hl, hs⟩ := e
  have len : ∀ b : List BOp, (Stheno.runOps (b.map (·.at' d)) {}).ms.length = (runOps b {}).ms.length := fun b => by
    rw [← C72_state]
    exact List.length_map _
  refine .direct (n := 0) (args := args.map (·.at' d)) (hw.at d) ?_ (C73_condition b 0 hc hs hd) ?_ ?_ ?_ fun e he => ?_
  · rcases ha with rfl | rfl
    · exact .inl rfl
    · exact .inr (by rw [List.map_cons, BArg.at', BArg.atL_eq]; rfl)
  · rw [← List.map_append]
    exact prefix_at hp d
  · exact lt_of_lt_of_eq hm (len b).symm
  · rw [← List.map_append, len]
    exact h1
  · obtain ⟨e', he', rfl⟩ := List.mem_map.1 he
    exact (hl e' he').at d

/-- **C76.** The chain rule for batches of data: at every index of the batch, `m.logpdf` of two lists of pairs is `m.logpdf` of the first plus `(m | first).logpdf` of the second. -/
theorem C76_chain {b : List BOp} {m1 : MId} {l1 l2 : List (BFdd × BVals)} {r1 r2 rj : Ten (Option ℝ)} (h : ∀ o ∈ ops, (Keep.fits u).Op o)
    (hR : ∀ d, In d u → Regular G (ops.map (·.at' d)) ∧ Tells (Dead G) N (ops.map (·.at' d))) (c : Conditioned u ops b m l1 m1)
    (e1 : Logpdf u ops m l1 r1) (e2 : Logpdf u ops m1 l2 r2) (ej : Logpdf u ops m (l1 ++ l2) rj) (hl1 : ∀ d, In d u → ∀ e ∈ l1, FitsV G (pairAt d e))
    (hl2 : ∀ d, In d u → ∀ e ∈ l2, FitsV G (pairAt d e)) (ha : ∀ e ∈ l2, Attached (runOps b {}) m e.1.p) :
    ∀ d, In d u → ∃ v1 v2, r1.get d = some v1 ∧ r2.get d = some v2 ∧ rj.get d = some (v1 + v2) := by
  intro d hd
  obtain ⟨v1, b1, h1, g1⟩ := e1.at h hd
  obtain ⟨v2, b2, h2, g2⟩ := e2.at h hd
  obtain ⟨vj, bj, hj, gj⟩ := ej.at h hd
  rw [List.map_append] at hj
  refine ⟨v1, v2, g1, g2, ?_⟩
  rw [gj, C37_regular (hR d hd).1 (hR d hd).2 (c.at hd) h1 h2 hj (fun e he => ?_) (fun e he => ?_) fun e he => ?_]
  · obtain ⟨e', he', rfl⟩ := List.mem_map.1 he
    exact hl1 d hd e' he'
  · obtain ⟨e', he', rfl⟩ := List.mem_map.1 he
    exact hl2 d hd e' he'
  · obtain ⟨e', he', rfl⟩ := List.mem_map.1 he
    exact (ha e' he').at d

/-- **C76.** Log-densities of batches are computed: if all inputs have the batch dimensions `s`, the noise is positive definite at every index, and the arguments are accepted, then
`m.logpdf` returns an array with one log-density for every index. -/
theorem C76_returns {s : List ℕ} {b os : List BOp} {ord : List MId} {as : List BArg} {f : BFdd} {y : BVals} (hs : ∃ d, In d s) (h : ∀ o ∈ ops, (Keep.is s).Op o)
    (hR : ∀ d, In d s → Regular G (ops.map (·.at' d))) (hw : BWritten as l) (hne : l ≠ []) (hc : logpdfArgs (runOps b {}) ord m as = some (os, f, y)) (hp : b ++ os <+: ops)
    (hr : Ready as) (hx : f.x.Is s) (hn : f.noise.MatIs s) (hy : Whole y) (h1 : y.ncols = 1) (hb : y.batch = s) (hl : ∀ d, In d s → ∀ e ∈ l, FitsV G (pairAt d e))
    (hN : ∀ d, In d s → ∀ e ∈ l, ((pairAt d e).1.noise.sq (pairAt d e).1.noise.r).PosDef) : ∃ r, Logpdf s ops m l r ∧ r.shape = s := by
  obtain ⟨r, r1, r2⟩ := C73_density_returns (ops := b ++ os) hs (fun o ho => h o (hp.subset ho)) hx hn hy h1 hb fun d hd => by
    have h2 := logpdfArgs_at (runOps b {}) hc hr h1 d
    rw [C72_state] at h2
    have h3 : b.map (·.at' d) ++ os.map (·.at' d) <+: ops.map (·.at' d) := by
      rw [← List.map_append]
      exact prefix_at hp d
    rw [List.map_append]
    cases hw with
    | plain f y => exact fddLogpdf_plain (e := pairAt d (f, y)) (hR d hd) (hl d hd _ (by simp)) (hN d hd _ (by simp)) h2 h3
    | pairs l =>
      rw [bpair_at] at h2
      refine fddLogpdf_pairs (l := l.map (pairAt d)) (hR d hd) (by simpa using hne) (fun e he => ?_) (fun e he => ?_) h2 h3
      · obtain ⟨e', he', rfl⟩ := List.mem_map.1 he
        exact hl d hd e' he'
      · obtain ⟨e', he', rfl⟩ := List.mem_map.1 he
        exact hN d hd e' he'
  exact ⟨r, .mk hw hc hp r1 ⟨hr, hx.fits, hn.fits, by rw [hb]; exact .refl s, hy, h1⟩, r2⟩

/-- **C76.** For VFE, any inducing points, and batches of data: at every index of the batch, `m.logpdf(pseudo_obs)` is at most `m.logpdf` of the same data. -/
theorem C76_bound (h : ∀ o ∈ ops, (Keep.fits u).Op o) (hR : ∀ d, In d u → Regular G (ops.map (·.at' d)) ∧ Tells (Dead G) N (ops.map (·.at' d)))
    (e : LogpdfU u ops m .vfe fs l t) (e' : Logpdf u ops m l r) (hf : ∀ d, In d u → ∀ f ∈ fs, FitsF G (f.at' d) ∧ ((f.at' d).noise.sq (f.at' d).noise.r).PosSemidef)
    (hl : ∀ d, In d u → ∀ e ∈ l, FitsV G (pairAt d e) ∧ (pairAt d e).1.noise.IsDiag (pairAt d e).1.noise.r) :
    ∀ d, In d u → ∃ r', r.get d = some r' ∧ t.get d ≤ r' := by
  intro d hd
  obtain ⟨r', b, h1, h2⟩ := e'.at h hd
  refine ⟨r', h2, C41_regular (hR d hd).1 (hR d hd).2 (e.at h hd) h1 (fun f hf' => ?_) fun e he => ?_⟩
  · obtain ⟨f', h3, rfl⟩ := List.mem_map.1 hf'
    exact hf d hd f' h3
  · obtain ⟨e', he', rfl⟩ := List.mem_map.1 he
    exact hl d hd e' he'

/-- **C76.** For VFE, FITC and DTC, and batches of data: with inducing points at the data, `m.logpdf(pseudo_obs)` is at every index of the batch `m.logpdf` of the same data. -/
theorem C76_exact (h : ∀ o ∈ ops, (Keep.fits u).Op o) (hR : ∀ d, In d u → Regular G (ops.map (·.at' d)) ∧ Tells (Dead G) N (ops.map (·.at' d)))
    (e : LogpdfU u ops m μ fs l t) (e' : Logpdf u ops m l r) (hA : ∀ d, In d u → AtData (fs.map (·.at' d)) (l.map (pairAt d)))
    (hw : ∀ d, In d u → WhiteNoise (l.map (pairAt d))) (hf : ∀ d, In d u → ∀ f ∈ fs, FitsF G (f.at' d)) (hl : ∀ d, In d u → ∀ e ∈ l, FitsV G (pairAt d e)) :
    ∀ d, In d u → r.get d = some (t.get d) := by
  intro d hd
  obtain ⟨r', b, h1, h2⟩ := e'.at h hd
  rw [h2, C40_elbo_regular (hR d hd).1 (hR d hd).2 (e.at h hd) h1 (hA d hd) (hw d hd) (fun f hf' => ?_) fun e he => ?_]
  · obtain ⟨f', h3, rfl⟩ := List.mem_map.1 hf'
    exact hf d hd f' h3
  · obtain ⟨e', he', rfl⟩ := List.mem_map.1 he
    exact hl d hd e' he'

/-- **C76.** For VFE and batches of data: if the inducing points, with their noise, are at every index among others, then `m.logpdf(pseudo_obs)` with the others is at every index of
the batch at least as large. -/
theorem C76_more {fs' : List BFdd} {t' : Ten ℝ} (h : ∀ o ∈ ops, (Keep.fits u).Op o) (hR : ∀ d, In d u → Regular G (ops.map (·.at' d)) ∧ Tells (Dead G) N (ops.map (·.at' d)))
    (e : LogpdfU u ops m .vfe fs l t) (e' : LogpdfU u ops m .vfe fs' l t')
    (ha : ∀ d, In d u → Among (pointsOf (fs.map (·.at' d))) (noiseOf (fs.map (·.at' d))) (pointsOf (fs'.map (·.at' d))) (noiseOf (fs'.map (·.at' d))))
    (hf : ∀ d, In d u → ∀ f ∈ fs, FitsF G (f.at' d)) (hf' : ∀ d, In d u → ∀ f ∈ fs', FitsF G (f.at' d))
    (hl : ∀ d, In d u → ∀ e ∈ l, FitsV G (pairAt d e)) : ∀ d, In d u → t.get d ≤ t'.get d := by
  intro d hd
  refine C55_regular (hR d hd).1 (hR d hd).2 (e.at h hd) (e'.at h hd) (ha d hd) (fun f h1 => ?_) (fun f h1 => ?_) fun e he => ?_
  · obtain ⟨f', h3, rfl⟩ := List.mem_map.1 h1
    exact hf d hd f' h3
  · obtain ⟨f', h3, rfl⟩ := List.mem_map.1 h1
    exact hf' d hd f' h3
  · obtain ⟨e', he', rfl⟩ := List.mem_map.1 he
    exact hl d hd e' he'

end Bat

/-! ### Examples -/

namespace Bat.ExampleInfer
open BatchExample ExampleFdd ExamplePseudo

/-- The program, including what `m.logpdf` does to the graph. -/
def all : List BOp := prior ++ [.call 0 0]

/-- Inducing points at the data. -/
def onto : BFdd := ⟨0, z, fillDiag 0 1⟩

theorem all_is : ∀ o ∈ all, (Keep.is [2]).Op o := by
  intro o ho
  rcases List.mem_append.1 ho with ho | ho
  · exact is o ho
  · obtain rfl := List.mem_singleton.1 ho
    trivial

theorem all_fits : ∀ o ∈ all, (Keep.fits [2]).Op o := fun o ho => Keep.is_fits (all_is o ho)

theorem k_psd : IsPSD (KExpr.prim k).val := by
  refine ⟨fun x y => show 1 + x.headD 0 * y.headD 0 = 1 + y.headD 0 * x.headD 0 by ring, fun s c => ?_⟩
  have h : ∑ x ∈ s, ∑ y ∈ s, c x * c y * (KExpr.prim k).val x y = (∑ x ∈ s, c x * x.headD 0) ^ 2 + (∑ x ∈ s, c x) ^ 2 := by
    rw [sq, sq, Finset.sum_mul_sum, Finset.sum_mul_sum, ← Finset.sum_add_distrib]
    refine Finset.sum_congr rfl fun x _ => ?_
    rw [← Finset.sum_add_distrib]
    refine Finset.sum_congr rfl fun y _ => ?_
    show c x * c y * (1 + x.headD 0 * y.headD 0) = _
    ring
  rw [h]
  positivity

theorem all_regular (d : List ℕ) : Regular (off fun _ => False) (all.map (·.at' d)) := by
  have e : all.map (·.at' d) = [.newMeasure, .gp (.fn (.const 3)) (.prim k) (some 0) (some "f"), .call 0 0] := rfl
  rw [e]
  refine .of_noisy_off ⟨?_, ?_, ?_, fun m obs h => ?_, smooth_of (by simp)⟩ (fun m obs h => ?_) (.of_exact (by simp))
  · intro o ho
    simp only [List.mem_cons, List.not_mem_nil, or_false] at ho
    rcases ho with rfl | rfl | rfl
    all_goals first
      | exact ⟨trivial, trivial, k_psd⟩
      | trivial
  · refine splits (P := fun before o => ∀ m, ∀ e ∈ o.written (Stheno.runOps before {}).gps.length m,
      ¬ False → e.2.TotalOff fun _ => False) ⟨?_, ?_, ?_, trivial⟩
    all_goals
      intro m e he
      first
        | exact (List.not_mem_nil he).elim
        | have he := List.mem_singleton.1 he
          subst he
          first
            | exact fun _ => ⟨trivial, trivial⟩
            | exact fun _ => not_false
  · intro before m obs after e hm
    have : Op.condition m obs ∈ [Op.newMeasure, .gp (.fn (.const 3)) (.prim k) (some 0) (some "f"), .call 0 0] := by rw [e]; simp
    simp at this
  · simp at h
  · simp at h

theorem all_tells (d : List ℕ) : Tells (Dead (off fun _ => False)) (fun _ => 1) (all.map (·.at' d)) := by
  rw [dead_off]
  refine splits (P := fun before o => ∀ m, ∀ e ∈ o.written (Stheno.runOps before {}).gps.length m,
      Sorted (fun _ => False) e ∧ Counts (fun _ => 1) e) (ops := [.newMeasure, .gp (.fn (.const 3)) (.prim k) (some 0) (some "f"), .call 0 0]) ⟨?_, ?_, ?_, trivial⟩
  all_goals
    intro m e he
    first
      | exact (List.not_mem_nil he).elim
      | have he := List.mem_singleton.1 he
        subst he
        first
          | exact ⟨⟨fun _ => ⟨trivial, trivial⟩, fun h => h.elim⟩, trivial⟩
          | exact ⟨⟨fun _ => not_false, fun h => h.elim⟩, rfl⟩

/-- The log-densities. -/
theorem logpdf : ∃ r, Logpdf [2] all 0 [(f, yf)] r := by
  have e : logpdfArgs (runOps prior {}) [] 0 [.fdd f, .vals yf] = some ([.call 0 0], ⟨1, z, fillDiag 1 1⟩, yf) := rfl
  obtain ⟨r, r1, -⟩ := C73_density_returns (f := ⟨1, z, fillDiag 1 1⟩) (y := yf) batch all_is z_is ⟨1, 1, [], rfl, rfl⟩ yf_whole rfl rfl fun d _ => by
    obtain ⟨a, ea⟩ := z_at d
    have e1 : BFdd.at' d ⟨1, z, fillDiag 1 1⟩ = ⟨1, .num [a], (fillDiag 1 1).toMat d⟩ := by
      unfold BFdd.at'
      rw [← ea]
    rw [e1]
    refine ⟨_, ⟨[3], ⟨1, 1, fun i j => k ([a].getD i []) ([a].getD j []) + ((fillDiag 1 1).toMat d).e i j⟩, ⟨0, _, rfl, ⟨.fn (.const 3), 1, rfl, rfl⟩, ⟨.prim k, 1, rfl, rfl⟩, rfl⟩,
      rfl, rfl, rfl, ?_, rfl⟩⟩
    refine (pd (A := fun i j => k ([a].getD i []) ([a].getD j []) + ((fillDiag 1 1).toMat d).e i j) (k a a + 1)
      (by simp only [k]; nlinarith [mul_self_nonneg (a.headD 0)]) ?_).submatrix
        (e := fun i => ((List.finRange 1).filter fun i : Fin 1 => ((valsAt d yf).getD i none).isSome).get i) (List.nodup_iff_injective_get.1 ((List.nodup_finRange 1).filter _))
    simp [toMat, Ten.get, fillDiag, clip]
  exact ⟨r, .mk (.plain f yf) e ⟨[], rfl⟩ r1 ⟨show 2 ≤ 2 from le_rfl, z_is.fits, rfl, rfl, yf_whole, rfl⟩⟩

/-- The pseudo-observations of `f`. -/
def pseudo (v : ℝ) : BPseudo := ⟨.vfe, z, fillDiag v 1, z, fillDiag 1 1, true, yf.uprank.map (·.getD 0)⟩

theorem pseudo_is (v : ℝ) : (pseudo v).Is [2] := ⟨z_is, ⟨1, 1, [], rfl, rfl⟩, z_is, ⟨1, 1, [], rfl, rfl⟩, rfl, rfl⟩

/-- The ELBOs, with noise of a nonnegative variance. -/
theorem elbo {v : ℝ} (hv : 0 ≤ v) : ∃ t, LogpdfU [2] all 0 .vfe [⟨0, z, fillDiag v 1⟩] [(f, yf)] t := by
  have e : observe f yf = some (.exact 0 z (fillDiag 1 1) (yf.uprank.map (·.getD 0))) := if_pos ⟨rfl, yf_whole⟩
  have e' : mkPseudo (runOps prior {}) [] [] .vfe true (.one ⟨0, z, fillDiag v 1⟩) [.fdd f, .vals yf] = some ([], .pseudo 0 0 (pseudo v)) := by
    simp only [mkPseudo, mkU, mkObs, e, Option.bind_eq_bind, Option.bind_some]
    rfl
  obtain ⟨D, R, h1, -⟩ := C75_returns (ops := prior) (m := 0) (pu := 0) (p := 0) batch is (pseudo_is v) fun d _ => by
    obtain ⟨a, ea⟩ := z_at d
    have e : (pseudo v).at' d = ⟨.vfe, .num [a], (fillDiag v 1).toMat d, .num [a], ⟨(fillDiag 1 1).toMat d, true⟩, ((pseudo v).at' d).y⟩ := by
      rw [← ea]
      rfl
    rw [e]
    have hc : ∀ w, callD (Stheno.runOps (prior.map (·.at' d)) {}) 0 0 0 (.num [a]) (.num [a]) = some w → w.length = 1 → kxDiag (Stheno.runOps (prior.map (·.at' d)) {}) 0
        ⟨.vfe, .num [a], (fillDiag v 1).toMat d, .num [a], ⟨(fillDiag 1 1).toMat d, true⟩, ((pseudo v).at' d).y⟩ 0 1 = some fun j : Fin 1 => w.getD j 0 := by
      intro w h1 h2
      unfold kxDiag
      simp only [h1, Option.bind_eq_bind, Option.bind_some, h2, if_true]
    refine partY_some (Z := ⟨1, 1, fun i j => k ([a].getD i []) ([a].getD j [])⟩) (A := ⟨1, 1, fun i j => k ([a].getD i []) ([a].getD j [])⟩)
      (K := ⟨1, 1, fun i j => k ([a].getD i []) ([a].getD j []) + ((fillDiag v 1).toMat d).e i j⟩) (mx := [3]) (mz := [3])
      ⟨.prim k, 1, rfl, rfl⟩ ⟨.prim k, 1, rfl, rfl⟩ rfl ⟨rfl, ⟨rfl, ?_⟩, rfl, rfl, rfl⟩ (hc _ (callD_iff.2 ⟨.prim k, 1, rfl, rfl⟩) rfl) ?_ ⟨.fn (.const 3), 1, rfl, rfl⟩
      ⟨.fn (.const 3), 1, rfl, rfl⟩ ⟨rfl, rfl⟩ rfl
    · refine pd (A := fun i j => k ([a].getD i []) ([a].getD j []) + ((fillDiag v 1).toMat d).e i j) (k a a + v) (by simp only [k]; nlinarith [mul_self_nonneg (a.headD 0)]) ?_
      simp [toMat, Ten.get, fillDiag, clip]
    · intro j
      have : ((fillDiag 1 1).toMat d).e j j = 1 := by simp [toMat, Ten.get, fillDiag, clip]
      simp only [knDiag, this]
      norm_num
  exact ⟨R.elbo, .mk (b := prior) (.one _) (.plain f yf) e' ⟨[], rfl⟩ ⟨[.call 0 0], rfl⟩ ⟨D, R, h1, rfl⟩ ⟨trivial, show Fine [2] [.fdd f, .vals yf] from rfl, (pseudo_is v).fits⟩
    (fun f hf => by cases List.mem_singleton.1 hf; exact ⟨_, rfl, List.mem_singleton.2 rfl⟩) fun e he => by cases List.mem_singleton.1 he; exact ⟨_, rfl, List.mem_singleton.2 rfl⟩⟩

theorem fits_f (d : List ℕ) (v : ℝ) : FitsF (off fun _ => False) (BFdd.at' d ⟨0, z, fillDiag v 1⟩) := ⟨_, rfl, rows_off not_false, rfl, rfl⟩

theorem fits_v (d : List ℕ) : FitsV (off fun _ => False) (pairAt d (f, yf)) := ⟨_, rfl, rows_off not_false, rfl, rfl, rfl⟩

theorem diag_f (d : List ℕ) (v : ℝ) : ((fillDiag v 1).toMat d).IsDiag 1 := fun i hi j hj hij => absurd (show i = j by omega) hij

/-- The ELBOs are bounds at both indices. -/
example : ∃ t r, LogpdfU [2] all 0 .vfe [f] [(f, yf)] t ∧ Logpdf [2] all 0 [(f, yf)] r ∧ ∀ d, In d [2] → ∃ r', r.get d = some r' ∧ t.get d ≤ r' := by
  obtain ⟨r, hr⟩ := logpdf
  obtain ⟨t, ht⟩ := elbo zero_le_one
  refine ⟨t, r, ht, hr, C76_bound all_fits (fun d _ => ⟨all_regular d, all_tells d⟩) ht hr (fun d _ f hf => ?_) fun d _ e he => ?_⟩
  · cases List.mem_singleton.1 hf
    refine ⟨fits_f d 1, (pd 1 one_pos ?_).posSemidef⟩
    show ((fillDiag 1 1).toMat d).e 0 0 = 1
    simp [toMat, Ten.get, fillDiag, clip]
  · cases List.mem_singleton.1 he
    exact ⟨fits_v d, diag_f d 1⟩

/-- With inducing points at the data, they are the log-densities. -/
example : ∃ t r, LogpdfU [2] all 0 .vfe [onto] [(f, yf)] t ∧ Logpdf [2] all 0 [(f, yf)] r ∧ ∀ d, In d [2] → r.get d = some (t.get d) := by
  obtain ⟨r, hr⟩ := logpdf
  obtain ⟨t, ht⟩ := elbo le_rfl
  refine ⟨t, r, ht, hr, C76_exact all_fits (fun d _ => ⟨all_regular d, all_tells d⟩) ht hr (fun d _ => ⟨rfl, fun f hf i hi j hj => ?_⟩) (fun d _ e he => ?_) (fun d _ f hf => ?_)
    fun d _ e he => ?_⟩
  · cases List.mem_singleton.1 hf
    show ((fillDiag 0 1).toMat d).e i j = 0
    simp [toMat, Ten.get, fillDiag]
  · cases List.mem_singleton.1 he
    refine ⟨diag_f d 1, fun i hi => ?_⟩
    have hi : i < 1 := hi
    obtain rfl : i = 0 := by omega
    show 0 < ((fillDiag 1 1).toMat d).e 0 0
    simp [toMat, Ten.get, fillDiag, clip]
  · cases List.mem_singleton.1 hf
    exact fits_f d 0
  · cases List.mem_singleton.1 he
    exact fits_v d

/-- A batch of two inducing points each, of which the first is that of `f`. -/
def zz : BInput := .num ⟨[1, 2, 2], fun i => (i.tail.headD 0 + i.tail.tail.headD 0 : ℝ)⟩

theorem zz_is : zz.Is [2] := ⟨rfl, by decide⟩

/-- The process there, with noise. -/
def ff : BFdd := ⟨0, zz, fillDiag 1 2⟩

/-- The pseudo-observations of `f` through `ff`. -/
def pseudo2 : BPseudo := ⟨.vfe, zz, fillDiag 1 2, z, fillDiag 1 1, true, yf.uprank.map (·.getD 0)⟩

theorem pseudo2_is : pseudo2.Is [2] := ⟨zz_is, ⟨2, 2, [], rfl, rfl⟩, z_is, ⟨1, 1, [], rfl, rfl⟩, rfl, rfl⟩

/-- The ELBOs with two inducing points. -/
theorem elbo2 : ∃ t, LogpdfU [2] all 0 .vfe [ff] [(f, yf)] t := by
  have e : observe f yf = some (.exact 0 z (fillDiag 1 1) (yf.uprank.map (·.getD 0))) := if_pos ⟨rfl, yf_whole⟩
  have e' : mkPseudo (runOps prior {}) [] [] .vfe true (.one ff) [.fdd f, .vals yf] = some ([], .pseudo 0 0 pseudo2) := by
    simp only [mkPseudo, mkU, mkObs, e, Option.bind_eq_bind, Option.bind_some]
    rfl
  obtain ⟨D, R, h1, -⟩ := C75_returns (ops := prior) (m := 0) (pu := 0) (p := 0) batch is pseudo2_is fun d _ => by
    obtain ⟨a, ea⟩ := z_at d
    obtain ⟨b, c, eb⟩ : ∃ b c : Pt, zz.at' d = .num [b, c] := ⟨_, _, rfl⟩
    have e : pseudo2.at' d = ⟨.vfe, .num [b, c], (fillDiag 1 2).toMat d, .num [a], ⟨(fillDiag 1 1).toMat d, true⟩, (pseudo2.at' d).y⟩ := by
      rw [← ea, ← eb]
      rfl
    rw [e]
    have hc : ∀ w, callD (Stheno.runOps (prior.map (·.at' d)) {}) 0 0 0 (.num [a]) (.num [a]) = some w → w.length = 1 → kxDiag (Stheno.runOps (prior.map (·.at' d)) {}) 0
        ⟨.vfe, .num [b, c], (fillDiag 1 2).toMat d, .num [a], ⟨(fillDiag 1 1).toMat d, true⟩, (pseudo2.at' d).y⟩ 0 1 = some fun j : Fin 1 => w.getD j 0 := by
      intro w h1 h2
      unfold kxDiag
      simp only [h1, Option.bind_eq_bind, Option.bind_some, h2, if_true]
    refine partY_some (Z := ⟨2, 1, fun i j => k ([b, c].getD i []) ([a].getD j [])⟩) (A := ⟨2, 2, fun i j => k ([b, c].getD i []) ([b, c].getD j [])⟩)
      (K := ⟨2, 2, fun i j => k ([b, c].getD i []) ([b, c].getD j []) + ((fillDiag 1 2).toMat d).e i j⟩) (mx := [3]) (mz := [3, 3])
      ⟨.prim k, 1, rfl, rfl⟩ ⟨.prim k, 1, rfl, rfl⟩ rfl ⟨rfl, ⟨rfl, ?_⟩, rfl, rfl, rfl⟩ (hc _ (callD_iff.2 ⟨.prim k, 1, rfl, rfl⟩) rfl) ?_ ⟨.fn (.const 3), 1, rfl, rfl⟩
      ⟨.fn (.const 3), 1, rfl, rfl⟩ ⟨rfl, rfl⟩ rfl
    · let B : Matrix (Fin 2) (Fin 2) ℝ := !![1, 1; b.headD 0, c.headD 0]
      have : (Matrix.of fun i j : Fin 2 => k ([b, c].getD i []) ([b, c].getD j []) + ((fillDiag 1 2).toMat d).e i j) = Bᴴ * B + 1 := by
        ext i j
        fin_cases i <;> fin_cases j <;> simp [B, k, toMat, Ten.get, fillDiag, clip, Matrix.mul_apply, Fin.sum_univ_two]
      refine (?_ : (Matrix.of fun i j : Fin 2 => k ([b, c].getD i []) ([b, c].getD j []) + ((fillDiag 1 2).toMat d).e i j).PosDef)
      rw [this]
      exact Matrix.PosDef.posSemidef_add (Matrix.posSemidef_conjTranspose_mul_self B) .one
    · intro j
      have : ((fillDiag 1 1).toMat d).e j j = 1 := by simp [toMat, Ten.get, fillDiag, clip]
      simp only [knDiag, this]
      norm_num
  exact ⟨R.elbo, .mk (b := prior) (.one _) (.plain f yf) e' ⟨[], rfl⟩ ⟨[.call 0 0], rfl⟩ ⟨D, R, h1, rfl⟩ ⟨trivial, show Fine [2] [.fdd f, .vals yf] from rfl, pseudo2_is.fits⟩
    (fun f hf => by cases List.mem_singleton.1 hf; exact ⟨_, rfl, List.mem_singleton.2 rfl⟩) fun e he => by
      cases List.mem_singleton.1 he; exact ⟨_, rfl, List.mem_singleton.2 rfl⟩⟩

/-- Another inducing point does not make the bounds worse. -/
example : ∃ t t', LogpdfU [2] all 0 .vfe [f] [(f, yf)] t ∧ LogpdfU [2] all 0 .vfe [ff] [(f, yf)] t' ∧ ∀ d, In d [2] → t.get d ≤ t'.get d := by
  obtain ⟨t, ht⟩ := elbo zero_le_one
  obtain ⟨t', ht'⟩ := elbo2
  refine ⟨t, t', ht, ht', C76_more all_fits (fun d _ => ⟨all_regular d, all_tells d⟩) ht ht' (fun d hd => ⟨fun _ => 0, fun i hi => ⟨show 0 < 2 by decide, ?_, fun j hj => ?_⟩⟩) (fun d _ f hf => ?_)
    (fun d _ f hf => ?_) fun d _ e he => ?_⟩
  · have hi : i < 1 := hi
    obtain rfl : i = 0 := by omega
    cases hd with
    | @cons a _ _ _ h h' =>
      cases h'
      show some ((0 : PId), [Ten.get (⟨[1, 1, 2], fun i => (i.tail.tail.headD 0 : ℝ)⟩ : Ten ℝ) [0, 0, a]]) =
        some (0, [Ten.get (⟨[1, 2, 2], fun i => (i.tail.headD 0 + i.tail.tail.headD 0 : ℝ)⟩ : Ten ℝ) [0, 0, a]])
      simp [Ten.get, clip]
  · have hi : i < 1 := hi
    have hj : j < 1 := hj
    obtain rfl : i = 0 := by omega
    obtain rfl : j = 0 := by omega
    simp [noiseOf, Mat.blockDiag, Mat.dsum, BFdd.at', toMat, Ten.get, fillDiag, clip, ff]
  · cases List.mem_singleton.1 hf
    exact fits_f d 1
  · cases List.mem_singleton.1 hf
    exact ⟨_, rfl, rows_off not_false, rfl, rfl⟩
  · cases List.mem_singleton.1 he
    exact fits_v d

/-- The observation of `f`. -/
def seen : BObs := .exact 0 z (fillDiag 1 1) (yf.uprank.map (·.getD 0))

/-- The measure is conditioned, and what `m.logpdf` does to the graph for both pairs, for the first, and, with the posterior, for the second. -/
def rule : List BOp := prior ++ [.cross [0, 0] [0], .call 0 1, .call 0 0, .condition 0 seen, .call 1 0]

/-- The processes that consist of more than one process. -/
abbrev crossed (p : PId) : Prop := p = 1 ∨ p = 2

theorem rule_is : ∀ o ∈ rule, (Keep.is [2]).Op o := by
  intro o ho
  rcases List.mem_append.1 ho with ho | ho
  · exact is o ho
  · simp only [List.mem_cons, List.not_mem_nil, or_false] at ho
    rcases ho with rfl | rfl | rfl | rfl | rfl
    all_goals first
      | trivial
      | exact ⟨z_is, ⟨1, 1, [], rfl, rfl⟩, rfl, rfl⟩

/-- The program at an index. -/
def ruleAt (d : List ℕ) : List Op := [.newMeasure, .gp (.fn (.const 3)) (.prim k) (some 0) (some "f"), .cross [0, 0] [0], .call 0 1, .call 0 0, .condition 0 (seen.at' d), .call 1 0]

theorem ruleAt_noisy (d : List ℕ) : Noisy (ruleAt d) := by
  intro m obs h
  simp only [ruleAt, List.mem_cons, List.not_mem_nil, or_false, reduceCtorEq, false_or, or_false, Op.condition.injEq] at h
  obtain ⟨-, rfl⟩ := h
  refine pd 1 one_pos ?_
  show ((fillDiag 1 1).toMat d).e 0 0 = 1
  simp [toMat, Ten.get, fillDiag, clip]

theorem rule_regular (d : List ℕ) : Regular (off crossed) (ruleAt d) := by
  refine .of_noisy_off ⟨?_, ?_, ?_, fun m obs h => (ruleAt_noisy d m obs h).psd, smooth_of (by simp [ruleAt])⟩ (ruleAt_noisy d) (.of_exact (by simp [ruleAt, seen, BObs.at']))
  · intro o ho
    simp only [ruleAt, List.mem_cons, List.not_mem_nil, or_false] at ho
    rcases ho with rfl | rfl | rfl | rfl | rfl | rfl | rfl
    all_goals first
      | exact ⟨trivial, trivial, k_psd⟩
      | trivial
      | (intro h; cases h)
  · refine splits (ops := ruleAt d) (P := fun before o => ∀ m, ∀ e ∈ o.written (Stheno.runOps before {}).gps.length m,
      ¬ crossed e.1 → e.2.TotalOff crossed) ⟨?_, ?_, ?_, ?_, ?_, ?_, ?_, trivial⟩
    all_goals
      intro m e he
      first
        | exact (List.not_mem_nil he).elim
        | have he := List.mem_singleton.1 he
          subst he
          first
            | exact fun _ => ⟨trivial, trivial⟩
            | exact fun h => (h (.inl rfl)).elim
            | exact fun h => (h (.inr rfl)).elim
            | exact fun _ h => by rcases h with h | h <;> cases h
  · intro before m obs after e hm
    refine splits (ops := ruleAt d) (P := fun before o => ∀ m obs, o = .condition m obs → ObsFitsOff crossed before m obs) ⟨?_, ?_, ?_, ?_, ?_, ?_, ?_, trivial⟩
      before _ after e m obs rfl
    all_goals
      intro m obs e
      first
        | (exfalso; cases e; done)
        | cases e
    exact ⟨rfl, rfl, rfl, .inl ⟨⟨_, rfl⟩, attached_iff.2 rfl, fun h => by rcases h with h | h <;> cases h⟩⟩

theorem rule_tells (d : List ℕ) : Tells (Dead (off crossed)) (fun _ => 2) (ruleAt d) := by
  rw [dead_off]
  refine splits (ops := ruleAt d) (P := fun before o => ∀ m, ∀ e ∈ o.written (Stheno.runOps before {}).gps.length m,
      Sorted crossed e ∧ Counts (fun _ => 2) e) ⟨?_, ?_, ?_, ?_, ?_, ?_, ?_, trivial⟩
  all_goals
    intro m e he
    first
      | exact (List.not_mem_nil he).elim
      | have he := List.mem_singleton.1 he
        subst he
        first
          | exact ⟨⟨fun _ => ⟨trivial, trivial⟩, fun h => (by rcases h with h | h <;> cases h)⟩, trivial⟩
          | exact ⟨⟨fun _ => (by decide : ¬ crossed _), fun h => (by rcases h with h | h <;> cases h)⟩, rfl⟩
          | exact ⟨⟨fun h => (h (.inl rfl)).elim, fun _ => ⟨by simp, by decide⟩⟩, rfl⟩
          | exact ⟨⟨fun h => (h (.inr rfl)).elim, fun _ => (by decide : crossed _)⟩, rfl⟩

theorem fits_f' (d : List ℕ) : FitsV (off crossed) (pairAt d (f, yf)) := ⟨_, rfl, rows_off (by decide : ¬ crossed 0), rfl, rfl, rfl⟩

theorem fits_g' (d : List ℕ) : FitsV (off crossed) (pairAt d (g, yg)) := ⟨_, rfl, rows_off (by decide : ¬ crossed 0), rfl, rfl, rfl⟩

theorem pd_f (d : List ℕ) : ((pairAt d (f, yf)).1.noise.sq (pairAt d (f, yf)).1.noise.r).PosDef := by
  refine pd 1 one_pos ?_
  show ((fillDiag 1 1).toMat d).e 0 0 = 1
  simp [toMat, Ten.get, fillDiag, clip]

theorem pd_g (d : List ℕ) : ((pairAt d (g, yg)).1.noise.sq (pairAt d (g, yg)).1.noise.r).PosDef := by
  have : ((fillDiag 2 3).toMat d).sq 3 = Matrix.diagonal fun _ => (2 : ℝ) := by
    ext i j
    show ((fillDiag 2 3).toMat d).e i j = _
    fin_cases i <;> fin_cases j <;> simp [toMat, Ten.get, fillDiag, clip]
  show (((fillDiag 2 3).toMat d).sq 3).PosDef
  rw [this]
  exact .diagonal fun _ => two_pos

/-- The log-densities of the first, of the second given the first, and of both. -/
example : ∃ r1 r2 rj, Logpdf [2] rule 0 [(f, yf)] r1 ∧ Logpdf [2] rule 1 [(g, yg)] r2 ∧ Logpdf [2] rule 0 [(f, yf), (g, yg)] rj ∧ rj.shape = [2] ∧
    ∀ d, In d [2] → ∃ v1 v2, r1.get d = some v1 ∧ r2.get d = some v2 ∧ rj.get d = some (v1 + v2) := by
  have e : observe f yf = some seen := if_pos ⟨rfl, yf_whole⟩
  have ec : conditionArgs (runOps (prior ++ [.cross [0, 0] [0], .call 0 1, .call 0 0]) {}) [] 0 [.fdd f, .vals yf] = some [.condition 0 seen] := by
    simp only [conditionArgs, mkObs, e]
    rfl
  obtain ⟨r1, h1, -⟩ := C76_returns (ops := rule) (b := prior ++ [.cross [0, 0] [0], .call 0 1]) (ord := []) (m := 0) batch rule_is (fun d _ => rule_regular d) (.plain f yf) (by simp) rfl
    ⟨[.condition 0 seen, .call 1 0], rfl⟩ (show 2 ≤ 2 from le_rfl) z_is ⟨1, 1, [], rfl, rfl⟩ yf_whole rfl rfl (fun d _ e he => by cases List.mem_singleton.1 he; exact fits_f' d)
    fun d _ e he => by cases List.mem_singleton.1 he; exact pd_f d
  obtain ⟨r2, h2, -⟩ := C76_returns (ops := rule) (b := prior ++ [.cross [0, 0] [0], .call 0 1, .call 0 0, .condition 0 seen]) (ord := []) (m := 1) batch rule_is (fun d _ => rule_regular d)
    (.plain g yg) (by simp) rfl
    ⟨[], rfl⟩ (show 2 ≤ 2 from le_rfl) x_is ⟨3, 3, [], rfl, rfl⟩ yg_whole rfl rfl (fun d _ e he => by cases List.mem_singleton.1 he; exact fits_g' d)
    fun d _ e he => by cases List.mem_singleton.1 he; exact pd_g d
  obtain ⟨y, -, t1, -⟩ := values
  have ej : logpdfArgs (runOps prior {}) [0] 0 [bpair (f, yf), bpair (g, yg)] = some ([.cross [0, 0] [0], .call 0 1], ⟨2, .tup [.fdd 0 z, .fdd 0 x], nc⟩, y) := by
    have : logpdfArgs (runOps prior {}) [0] 0 [bpair (f, yf), bpair (g, yg)] = (combine (runOps prior {}) [0] [f, g]).bind fun c => (combineValues [yf, yg]).bind fun y =>
      (callFdd (c.1.after (runOps prior {})) 0 c.2).bind fun c' => some ([c.1, c'.1], c'.2, y) := rfl
    rw [this, combined, t1]
    rfl
  have hy : Whole y ∧ y.ncols = 1 ∧ y.batch = [2] := by
    cases t1
    refine ⟨fun i hi => ?_, rfl, rfl⟩
    by_cases h : i.tail.headD 0 < 1
    · exact (congrArg Option.isSome (if_pos h)).trans rfl
    · exact (congrArg Option.isSome (if_neg h)).trans rfl
  obtain ⟨rj, hj, sj⟩ := C76_returns (ops := rule) (l := [(f, yf), (g, yg)]) batch rule_is (fun d _ => rule_regular d) (.pairs _) (by simp) ej
    ⟨[.call 0 0, .condition 0 seen, .call 1 0], rfl⟩ (fun l h => by cases h; exact wide) ⟨by simp, z_is, x_is, trivial⟩ ⟨4, 4, [], rfl, rfl⟩ hy.1 hy.2.1 hy.2.2
    (fun d _ e he => by
      simp only [List.mem_cons, List.not_mem_nil, or_false] at he
      rcases he with rfl | rfl
      · exact fits_f' d
      · exact fits_g' d)
    fun d _ e he => by
      simp only [List.mem_cons, List.not_mem_nil, or_false] at he
      rcases he with rfl | rfl
      · exact pd_f d
      · exact pd_g d
  refine ⟨r1, r2, rj, h1, h2, hj, sj, C76_chain (l1 := [(f, yf)]) (l2 := [(g, yg)]) (fun o ho => Keep.is_fits (rule_is o ho)) (fun d _ => ⟨rule_regular d, rule_tells d⟩)
    (.mk (.plain f yf) (.inl rfl) ec ⟨[.call 1 0], rfl⟩ (by decide : 0 < 1) rfl (fun e he => by cases List.mem_singleton.1 he; exact ⟨_, rfl, by decide⟩)
      (show Fine' [2] [.fdd f, .vals yf] from rfl)) h1 h2 hj (fun d _ e he => by cases List.mem_singleton.1 he; exact fits_f' d)
    (fun d _ e he => by cases List.mem_singleton.1 he; exact fits_g' d) fun e he => by cases List.mem_singleton.1 he; exact ⟨_, rfl, by decide⟩⟩

end Bat.ExampleInfer

end Stheno
