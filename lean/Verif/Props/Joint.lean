import Verif.Chain
import Verif.MeasureFns
import Verif.Props.Conditional
import Verif.Props.Density
import Verif.Props.Notation

/-!
# C37: the chain rule of log-densities; C29: joint samples
-/

namespace Stheno

open Matrix

set_option linter.unusedSectionVars false

/-! ## Applying a measure to an FDD -/

section
variable {ops b : List Op} {m : MId} {f f' : Fdd} {o : Op}

theorem after_runOps (b : List Op) (o : Op) : o.after (runOps b {}) = runOps (b ++ [o]) {} := by
  unfold runOps; rw [List.foldl_append]; rfl

theorem aCall_mean {p : PId} {L L' : AWorld} {v : PId} (h : aCall m p L = .ok v L') : (L.mean m p).isSome := by
  obtain ⟨res, L1, h1, h⟩ := bind_ok h
  cases h1
  obtain ⟨a, L2, h2, h⟩ := bind_ok h
  obtain ⟨_, L3, h3, h⟩ := bind_ok h
  unfold aGetMeas at h2
  cases ha : L.ms[m]? with
  | none => simp only [ha] at h2; cases h2
  | some a' =>
    simp only [ha] at h2; cases h2
    exact (aDefine_ok h3).2.1

/-- What `measure(fdd)` does: the process must be in the measure, and a copy of it is made whose first measure is this one. -/
theorem callFdd_parts (h : callFdd (runOps b {}) m f = some (o, f')) :
    o = .call m f.p ∧ f' = ⟨(runOps b {}).gps.length, f.x, f.noise⟩ ∧ Attached (runOps b {}) m f.p ∧
      Attached (runOps (b ++ [o]) {}) m (runOps b {}).gps.length ∧ gpMeasure (runOps (b ++ [o]) {}) (runOps b {}).gps.length = some m := by
  unfold callFdd at h
  simp only at h
  split at h
  · cases h
  · next hr =>
    obtain ⟨g, hg, h⟩ := bind_some h
    cases h
    obtain ⟨k, hk, hg⟩ := bind_some hg
    obtain ⟨n, hn, hg⟩ := bind_some hg
    cases hg
    have hi := Inv.reach b
    have hok := hi.ok hr
    have hi' := (hi.after (.call m f.p)).1
    obtain ⟨v, hv⟩ := forget_ok hok
    obtain ⟨_, hm, e⟩ := aCall_ok hv
    have hfresh : (specOps b {}).new.gps[(specOps b {}).gps.length]? = some [] := by simp [AWorld.new]
    have hgr : groups (runOps (b ++ [.call m f.p]) {}) (runOps b {}).gps.length = [m] := by
      rw [← after_runOps]
      unfold groups
      rw [hi'.rel.gps, hi.rel.gps, e, primary_push_fresh hfresh]
      rfl
    have hat : Attached (runOps (b ++ [.call m f.p]) {}) m (runOps b {}).gps.length :=
      ((C32_consistent _).1 _ _).2 (by rw [hgr]; simp)
    refine ⟨rfl, rfl, ?_, hat, by unfold gpMeasure; rw [hgr]; rfl⟩
    -- looking up the mean did not raise
    have hmean := aCall_mean hv
    obtain ⟨a, ha⟩ : ∃ a, (specOps b {}).ms[m]? = some a := ⟨_, List.getElem?_eq_getElem hm⟩
    obtain ⟨k, hk⟩ := Option.isSome_iff_exists.1 hmean
    rw [mean_eq hi.wf.ms.stable.base_lt ha] at hk
    exact hi.attached.2 ⟨a, ha, lookMDefs_known hk⟩

/-- The mean and variance of `measure(fdd)` are those of the process of the FDD in the measure. -/
theorem callFdd_normal (h : callFdd (runOps b {}) m f = some (o, f')) (hb : b ++ [o] <+: ops) {v : List ℝ} {V : Mat}
    (hn : FddNormal (runOps (b ++ [o]) {}) f' v V) : ∃ K, MeanCall (runOps ops {}) m f.p f.x v ∧
      KernelCall (runOps ops {}) m f.p f.p f.x f.x K ∧ K.add f.noise = some V := by
  obtain ⟨rfl, rfl, h1, h2, h3⟩ := callFdd_parts h
  obtain ⟨m', K, hm, hv, hK, hV⟩ := hn
  simp only at hm hv hK hV
  rw [h3] at hm
  cases hm
  obtain ⟨t, rfl⟩ := hb
  obtain ⟨e1, e2, _⟩ := C33_table (ops := b ++ [.call m f.p]) ⟨⟨[], rfl⟩, rfl, m, h2⟩ h2 (mem_members.2 h1)
  refine ⟨K, C05_mean_call ?_, C05_kernel_call ?_, hV⟩
  · obtain ⟨a, n, ha, hv⟩ := hv
    exact ⟨a, n, e1 ▸ ha, hv⟩
  · obtain ⟨k, n, hk, hK⟩ := hK
    exact ⟨k, n, e2 ▸ hk, hK⟩

end

/-! ## The value of a log-density -/

theorem logpdfFull_congr {n k : ℕ} (h : n = k) {g : Normal n} {g' : Normal k} {x : Fin n → ℝ} {x' : Fin k → ℝ}
    (hm : ∀ i, g.mean i = g'.mean (Fin.cast h i)) (hv : ∀ i j, g.var i j = g'.var (Fin.cast h i) (Fin.cast h j))
    (hx : ∀ i, x i = x' (Fin.cast h i)) : g.logpdfFull x = g'.logpdfFull x' := by
  subst h
  obtain ⟨a, A⟩ := g
  obtain ⟨b, B⟩ := g'
  obtain rfl : a = b := funext hm
  obtain rfl : A = B := Matrix.ext hv
  obtain rfl : x = x' := funext hx
  rfl

theorem posDef_congr {n k : ℕ} (h : n = k) {A : Matrix (Fin n) (Fin n) ℝ} {B : Matrix (Fin k) (Fin k) ℝ}
    (hv : ∀ i j, A i j = B (Fin.cast h i) (Fin.cast h j)) (hA : A.PosDef) : B.PosDef := by
  subst h
  obtain rfl : A = B := Matrix.ext hv
  exact hA

theorem positions_finRange {n : ℕ} {y : Vals} (hy : y.length = n) :
    ((List.finRange n).filter fun i : Fin n => (y.getD i none).isSome).map Fin.val = positions (y.map Option.isSome) := by
  subst hy
  have h1 : positions (y.map Option.isSome) = (List.range y.length).filter fun i => (y.getD i none).isSome := by
    unfold positions
    rw [List.length_map]
    refine List.filter_congr fun i hi => ?_
    have hi := List.mem_range.1 hi
    simp [List.getD_eq_getElem?_getD, hi]
  rw [h1, ← List.map_coe_finRange_eq_range, filter_map]
  rfl

theorem filterMap_pick : ∀ y : Vals, y.filterMap id = (pick y (y.map Option.isSome)).map (·.getD 0)
  | [] => rfl
  | none :: y => by simpa [pick] using filterMap_pick y
  | some a :: y => by simpa [pick] using filterMap_pick y

theorem getD_lt {α : Type} {l : List α} {i : ℕ} {d : α} (h : i < l.length) : l.getD i d = l[i] := by
  simp [List.getD_eq_getElem?_getD, h]

section
variable {V : Type} [AddCommGroup V] [Module ℝ V] {I : Interp V} {ops : List Op} {m : MId} {p : PId} {x x' : Input} {y : Vals}
  {zs : List V} {N N' : Mat} {v : List ℝ} {K W : Mat} {r : ℝ}

/-- Calls at selected elements of the input. -/
theorem select_calls (hv : MeanCall (runOps ops {}) m p x v) (hK : KernelCall (runOps ops {}) m p p x x K) (hc : K.c = K.r) (hl : v.length = K.r)
    {is : List ℕ} (hs : SelF x v.length is x') : MeanCall (runOps ops {}) m p x' (entries 0 v is) ∧
      ∃ K', KernelCall (runOps ops {}) m p p x' x' K' ∧ K'.Eqv (K.sub2 is is) := by
  obtain ⟨a, n, ha, hv⟩ := hv
  obtain ⟨k, n', hk, hK⟩ := hK
  obtain ⟨K', h1, h2⟩ := (ev_local n').K _ _ _ _ hK is x' (hl ▸ hs) is x' (by rw [hc, ← hl]; exact hs)
  exact ⟨⟨a, n, ha, (ev_local n).M _ _ _ hv _ _ hs⟩, K', ⟨k, n', hk, h1⟩, h2⟩

/-- In any reading, the log-density of data for a process, some of which may be missing, is that of the available data under the normal with
the expectations and covariances of what is observed. -/
theorem logpdf_value (h : I.Reads ops) (hv : MeanCall (runOps ops {}) m p x v) (hK : KernelCall (runOps ops {}) m p p x x K)
    (hW : K.add N = some W) (hc : W.c = W.r) (hl : v.length = W.r) (hy : y.length = W.r)
    (hp : ((asNormal (.col v) W).sub ((List.finRange W.r).filter fun i => (y.getD i none).isSome)).var.PosDef)
    (hs : SelF x y.length (positions (y.map Option.isSome)) x') (hF : I.F m p x' = some zs) (hz : (y.filterMap id).length = zs.length)
    (hN : (N.sub2 (positions (y.map Option.isSome)) (positions (y.map Option.isSome))).Eqv N') :
    (asNormal (.col v) W).logpdf (fun i => y.getD i none) = (obsNormal (I.S m) zs N').logpdfFull (fun i => (y.filterMap id).getD i 0) ∧
      (noisyGram (I.S m) zs N').PosDef := by
  have hsz : K.r = N.r ∧ K.c = N.c := by
    by_contra hne
    rw [Mat.add, if_neg hne] at hW
    cases hW
  have hW' : W = ⟨K.r, K.c, fun i j => K.e i j + N.e i j⟩ := by
    rw [Mat.add, if_pos hsz] at hW
    exact (Option.some.inj hW).symm
  subst hW'
  simp only at hc hl hy hp
  set is := (List.finRange K.r).filter fun i : Fin K.r => (y.getD i none).isSome with his
  have hpos : is.map Fin.val = positions (y.map Option.isSome) := positions_finRange hy
  obtain ⟨hv', K', hK', hE⟩ := select_calls hv hK hc hl (by rw [hl, ← hy]; exact hs)
  have hlen : is.length = zs.length := by
    rw [← hz, filterMap_length, ← positions_length, ← hpos, List.length_map]
  have hplen : (positions (y.map Option.isSome)).length = zs.length := by rw [← hpos, List.length_map, hlen]
  have hget : ∀ i : Fin is.length, (positions (y.map Option.isSome)).getD i 0 = (is.get i : ℕ) := by
    intro i
    rw [← hpos, getD_lt (by simp), List.getElem_map]
    rfl
  have hmean := (h.mean hv' hF).2 (by simp [entries, hplen])
  have hcov := (h.kernel hK' hF hF).e (hE.r.trans hplen) (hE.c.trans hplen)
  have hm : ∀ i : Fin is.length, v.getD (is.get i) 0 = (I.S m).E (zs.get (Fin.cast hlen i)) := by
    intro i
    have h1 : (entries 0 v (positions (y.map Option.isSome)))[(i : ℕ)]? = (zs.map (I.S m).E)[(i : ℕ)]? := by rw [hmean]
    unfold entries at h1
    rw [List.getElem?_map, List.getElem?_map, List.getElem?_eq_getElem (by omega), List.getElem?_eq_getElem (by omega)] at h1
    have h1 := Option.some.inj h1
    rw [← hget i, getD_lt (by omega : (i : ℕ) < _)]
    exact h1
  have hvar : ∀ i j : Fin is.length, K.e (is.get i) (is.get j) + N.e (is.get i) (is.get j) =
      noisyGram (I.S m) zs N' (Fin.cast hlen i) (Fin.cast hlen j) := by
    intro i j
    have hi : (i : ℕ) < zs.length := by omega
    have hj : (j : ℕ) < zs.length := by omega
    have h1 := hcov i hi j hj
    have h2 := hE.e i (by simp only [Mat.sub2]; omega) j (by simp only [Mat.sub2]; omega)
    have h3 := hN.e i (by rw [← hN.r]; simp only [Mat.sub2]; omega) j (by rw [← hN.c]; simp only [Mat.sub2]; omega)
    simp only [Mat.sub2, hget] at h2 h3
    show _ = (I.S m).C (zs.get _) (zs.get _) + N'.e i j
    rw [← h2, h1, h3]
    simp only [covMat]
    rw [getD_lt hi, getD_lt hj]
    rfl
  have hdata : ∀ i : Fin is.length, (y.getD (is.get i) none).getD 0 = (y.filterMap id).getD (Fin.cast hlen i) 0 := by
    intro i
    rw [← hget i, filterMap_pick, pick_entries none (by simp)]
    have hi : (i : ℕ) < (positions (y.map Option.isSome)).length := by omega
    simp [entries, List.getD_eq_getElem?_getD, List.getElem?_eq_getElem hi]
  refine ⟨?_, posDef_congr hlen hvar hp⟩
  rw [C36_missing]
  exact logpdfFull_congr hlen hm hvar hdata

end

/-! ## All notations -/

/-- After the program `b`, and within `ops`, the log-density of the pairs `l` under the measure `m` is computed in one of the notations of the
code, and is `r`: `m.logpdf(fdd, y)`, `m.logpdf((fdd1, y1), ...)`, or `m.logpdf(obs)` with `obs` made before. -/
inductive Logpdf (ops b : List Op) (m : MId) (l : List (Fdd × Vals)) (r : ℝ) : Prop
  | direct {ord : List MId} {as : List Arg} {os : List Op} {f : Fdd} {y : Vals} (hw : Written as l)
      (hc : logpdfArgs (runOps b {}) ord m as = some (os, f, y)) (hp : b ++ os <+: ops) (hr : FddLogpdf (runOps (b ++ os) {}) f y r)
  | object {b0 : List Op} {n : ℕ} {ord ord' : List MId} {as : List Arg} {os os' : List Op} {o : Obs} {f : Fdd} {y : Vals} (hw : Written as l)
      (ho : mkObs (runOps b0 {}) n ord as = some (os, o)) (hb : b0 ++ os <+: b)
      (hc : logpdfArgs (runOps b {}) ord' m [.obs o] = some (os', f, y)) (hp : b ++ os' <+: ops)
      (hr : FddLogpdf (runOps (b ++ os') {}) f y r) (hl : ∀ e ∈ l, Attached (runOps b0 {}) m e.1.p)

/-- Selecting the available elements of a tuple of FDDs. -/
theorem selL_fdds {G : Dom} : ∀ {l : List (Fdd × Vals)}, (∀ e ∈ l, FitsV G e) →
    SelL (l.map fun e => .fdd e.1.p e.1.x) (positions ((l.flatMap (·.2)).map Option.isSome))
      ((l.map available).map fun e => .fdd e.1.p e.1.x) ∧
    numElementsL (l.map fun e => .fdd e.1.p e.1.x) = (l.flatMap (·.2)).length
  | [], _ => ⟨.nil, rfl⟩
  | e :: l, h => by
    obtain ⟨h1, h2⟩ := selL_fdds (G := G) (l := l) fun e he => h e (by simp [he])
    obtain ⟨xs, hx, _, _, _, hy⟩ := h e (by simp)
    have hn : (e.2.map Option.isSome).length = numElements (.fdd e.1.p e.1.x) := by
      rw [List.length_map, hx, hy]; rfl
    constructor
    · simp only [List.map_cons, List.flatMap_cons, List.map_append]
      rw [positions_append, hn]
      refine .cons (.fdd ?_) h1
      rw [available_x hx, hx, pick_entries [] (by simp [hy])]
      exact .num fun i hi => by have := positions_lt i hi; simpa [hy] using this
    · simp only [List.map_cons, List.flatMap_cons, numElementsL, List.length_append]
      rw [h2, ← hn, List.length_map]

section
variable {V : Type} [AddCommGroup V] [Module ℝ V] {I : Interp V} {G : Dom} {D : PId → ℕ} {ops b : List Op} {m : MId}
  {l : List (Fdd × Vals)} {r : ℝ} {zss : List (List V)}

/-- What `combine` makes. -/
theorem combine_parts {ord : List MId} {fs : List Fdd} {o : Op} {f : Fdd} (h : combine (runOps b {}) ord fs = some (o, f)) :
    o = .cross (fs.map (·.p)) ord ∧ f = ⟨(runOps b {}).gps.length, .tup (fs.map fun f => .fdd f.p f.x), Mat.blockDiag (fs.map (·.noise))⟩ := by
  unfold combine at h
  simp only at h
  split at h
  · cases h
  · obtain ⟨f', hf, h⟩ := bind_some h
    cases h
    obtain ⟨k, _, hf⟩ := bind_some hf
    obtain ⟨_, _, hf⟩ := bind_some hf
    cases hf
    exact ⟨rfl, rfl⟩

/-- In any reading, and in all notations, the log-density is that of the available data under the normal with the expectations and covariances of
what is observed. -/
theorem Logpdf.value (e : Logpdf ops b m l r) (h : I.Reads ops) (ht : Tells (Dead G) D ops) (hl : ∀ e ∈ l, FitsV G e)
    (hb : I.Blocks m (l.map available) zss) :
    r = (obsNormal (I.S m) zss.flatten (Mat.blockDiag ((l.map available).map (·.1.noise)))).logpdfFull
      (fun i => ((l.map available).flatMap (·.2)).getD i 0) ∧
    (noisyGram (I.S m) zss.flatten (Mat.blockDiag ((l.map available).map (·.1.noise)))).PosDef := by
  have hy : (l.map available).flatMap (·.2) = (l.flatMap (·.2)).filterMap id := by
    rw [List.flatMap_map, List.filterMap_flatMap]; rfl
  cases e with
  | @direct ord as os f y hw hc hp hr =>
    obtain ⟨v, W, hn, hWc, hvl, hyl, hpd, rfl⟩ := hr.ret
    cases hw with
    | plain f0 y0 =>
      obtain ⟨⟨o, f1⟩, h1, hc⟩ := bind_some hc
      cases hc
      obtain ⟨K, hv, hK, hW⟩ := callFdd_normal h1 hp hn
      obtain ⟨xs, hx, hC, s1, s2, s3⟩ := hl (f0, y) (by simp)
      simp only at hx hC s1 s2 s3
      obtain ⟨_, _, hsz⟩ := hb.sizes
      rw [hy] at hsz ⊢
      have hF : I.F m f0.p (available (f0, y)).1.x = some zss.flatten := by
        cases hb with
        | cons hb hb' => cases hb'; simpa using (show I.F m f0.p (available (f0, y)).1.x = _ from hb.1)
      have hyy : [(f0, y)].flatMap (·.2) = y := by simp
      rw [hyy] at hsz ⊢
      refine logpdf_value h hv hK hW hWc hvl hyl hpd (.inr ⟨by rw [hx]; exact s3, ?_⟩) hF hsz ?_
      · rw [show (available (f0, y)).1.x = _ from available_x hx, hx, pick_entries [] (by simp [s3])]
        exact .num fun i hi => by have := positions_lt i hi; simpa [s3] using this
      · have := blockDiag_available hl
        rw [hyy] at this
        refine Mat.Eqv.trans ?_ this
        refine ⟨rfl, rfl, fun i hi j hj => ?_⟩
        have lt : ∀ i < (positions (y.map Option.isSome)).length, (positions (y.map Option.isSome)).getD i 0 < xs.length := by
          intro i hi
          rw [getD_lt hi]
          have := positions_lt _ (List.getElem_mem hi)
          simpa [s3] using this
        exact (blockDiag_one _ _ _ (by rw [s1]; exact lt i hi) (by rw [s2]; exact lt j hj)).symm
    | pairs l =>
      have hc : (do
          let l ← pairs? (l.map pairArg)
          let (o, f) ← combine (runOps b {}) ord (l.map (·.1))
          let (o', f) ← callFdd (o.after (runOps b {})) m f
          pure ([o, o'], f, l.flatMap (·.2))) = some (os, f, y) := by
        cases l with
        | nil => exact hc
        | cons e l =>
          cases l <;> exact hc
      obtain ⟨l', hl', hc1⟩ := bind_some hc
      have : l' = l := by
        cases l with
        | nil => cases hl'
        | cons e l =>
          have h1 := pairs_mapM (e :: l)
          have h2 : ((e :: l).map pairArg).mapM Arg.pair? = some l' := hl'
          rw [h1] at h2
          exact (Option.some.inj h2).symm
      subst this
      obtain ⟨⟨o, f0⟩, h0, hc2⟩ := bind_some hc1
      obtain ⟨⟨o', f1⟩, h1, hc3⟩ := bind_some hc2
      cases hc3
      rw [after_runOps] at h1
      have hp' : (b ++ [o]) ++ [o'] <+: ops := by simpa using hp
      obtain ⟨K, hv, hK, hW⟩ := callFdd_normal h1 hp' (by simpa using hn)
      obtain ⟨_, _, hat, _⟩ := callFdd_parts h1
      obtain ⟨rfl, rfl⟩ := combine_parts h0
      simp only [List.map_map] at hat hv hK hW hp'
      have hat' := attached_pre hat ((List.prefix_append _ [o']).trans hp')
      have hrun : Runs ops b (.cross (l'.map fun e => e.1.p) ord) (runOps b {}).gps.length := by
        obtain ⟨t, ht⟩ := hp'
        exact ⟨⟨o' :: t, by rw [← ht]; simp [Function.comp_def]⟩, rfl, m, hat⟩
      have hj : ObsOf ops m (l'.map available) (jointObs (runOps b {}).gps.length (l'.map available)) := .joint hrun hat' (by
        intro e he
        obtain ⟨e', he', rfl⟩ := List.mem_map.1 he
        exact List.mem_map.2 ⟨e', he', rfl⟩)
      obtain ⟨p, x, noise, y, e, hF, _, _, hsr, hsc, _⟩ := hj.observes h hb
      cases e
      obtain ⟨_, _, hsz⟩ := hb.sizes
      rw [hy] at hsz ⊢
      obtain ⟨sel, hne⟩ := selL_fdds hl
      exact logpdf_value h hv hK hW hWc hvl hyl hpd (.inr ⟨hne.symm, .tup sel⟩) hF hsz (blockDiag_available hl)
  | @object b0 n ord ord' as os os' o f y hw ho hb0 hc hp hr ha =>
    obtain ⟨v, W, hn, hWc, hvl, hyl, hpd, rfl⟩ := hr.ret
    have hO : ObsOf ops m (l.map available) o := mkObs_obsOf ht hw ho (hb0.trans ((List.prefix_append _ os').trans hp)) hl ha
    obtain ⟨p, x, noise, y', rfl, hF, _, hy', hsr, hsc, hN⟩ := hO.observes h hb
    obtain ⟨⟨o, f1⟩, h1, hc⟩ := bind_some hc
    cases hc
    obtain ⟨K, hv, hK, hW⟩ := callFdd_normal h1 hp hn
    obtain ⟨sr, sc, hsz⟩ := hb.sizes
    have hall : ∀ z ∈ (y'.map some).map Option.isSome, z = true := by simp
    have hpos : positions ((y'.map some).map Option.isSome) = List.range y'.length := by rw [positions_all hall]; simp
    have hfm : (y'.map some).filterMap id = y' := by rw [List.filterMap_map]; simp
    rw [← hy'] at hsz ⊢
    have := logpdf_value (y := y'.map some) h hv hK hW hWc hvl hyl hpd (.inl ⟨rfl, by rw [hpos]; simp⟩) hF (by rw [hfm]; exact hsz)
      (N' := Mat.blockDiag ((l.map available).map (·.1.noise))) (by
        rw [hpos]
        refine ⟨by simpa [Mat.sub2] using hsz.trans sr.symm, by simpa [Mat.sub2] using hsz.trans sc.symm, fun i hi j hj => ?_⟩
        have hi : i < y'.length := by rw [hsz, ← sr]; exact hi
        have hj : j < y'.length := by rw [hsz, ← sc]; exact hj
        have e1 : ∀ i, i < y'.length → (List.range y'.length).getD i 0 = i := fun i hi => by rw [getD_lt (by simpa using hi)]; simp
        simp only [Mat.sub2]
        rw [e1 i hi, e1 j hj]
        exact hN i (hsz ▸ hi) j (hsz ▸ hj))
    rw [hfm] at this
    exact this

variable {l1 l2 : List (Fdd × Vals)} {m1 : MId} {r1 r2 rj : ℝ} {b1 b2 bj : List Op}

/-- Like `Gives.blocks`, also if nothing is observed. -/
theorem Gives.blocks_any {l : List (Fdd × List ℝ)} {o : Obs} (g : Gives ops b m o m1) (h : I.Reads ops) (hf : I.Firm ops)
    (ho : ObsOf ops m l o) (hb : I.Blocks m l zss) (hl : ∀ e ∈ l, Fits C e) :
    IsUpdate (I.S m) (I.S m1) zss.flatten (Mat.blockDiag (l.map (·.1.noise))) (l.flatMap (·.2)) ∧
      (noisyGram (I.S m) zss.flatten (Mat.blockDiag (l.map (·.1.noise)))).PosDef := by
  by_cases hn : ∃ e ∈ l, numElements e.1.x ≠ 0
  · exact g.blocks h hf ho hb hn
  · have h0 : ∀ e ∈ l, numElements e.1.x = 0 := fun e he => by
      by_contra hc
      exact hn ⟨e, he, hc⟩
    have hz : zss.flatten = [] := by
      clear ho g hn
      induction hb with
      | nil => rfl
      | @cons e zs l zss k _ ih =>
        obtain ⟨xs, hx, _, s1, _⟩ := hl e (by simp)
        have := h0 e (by simp)
        rw [hx] at this
        have hzs : zs = [] := List.length_eq_zero_iff.1 (by rw [← k.2.1, s1]; exact this)
        rw [List.flatten_cons, hzs, ih (fun e he => hl e (by simp [he])) fun e he => h0 e (by simp [he])]
        rfl
    have hS : I.S m1 = I.S m := by
      obtain ⟨p, x, noise, y, rfl, _, hx, _⟩ := ho.observes h hb
      rcases (g.law h).2 with ⟨_, hS⟩ | ⟨hne, _⟩
      · exact hS
      · exfalso
        rw [hx] at hne
        refine hne (List.sum_eq_zero fun s hs => ?_)
        obtain ⟨e, he, rfl⟩ := List.mem_map.1 hs
        exact h0 e he
    obtain ⟨s1, s2, s3⟩ := hb.sizes
    rw [hz] at s1 s2 s3 ⊢
    rw [hS]
    refine ⟨⟨s1, s2, fun _ u v => ?_, fun _ _ u => ?_⟩, ?_⟩
    · rw [quadSum_eq]
      simp [dotProduct]
    · simp
    · refine PosDef.of_dotProduct_mulVec_pos ?_ fun w hw => ?_
      · ext i
        exact i.elim0
      · exact absurd (funext fun i => i.elim0) hw

/-- The chain rule for data that are concatenations. -/
theorem chain_of {S S1 : SO V} {zs zs1 zs2 : List V} {n n1 n2 : Mat} {y y1 y2 : List ℝ} (hu : IsUpdate S S1 zs1 n1 y1)
    (p1 : (noisyGram S zs1 n1).PosDef) (pj : (noisyGram S zs n).PosDef) (hl : y1.length = zs1.length)
    (hz : zs = zs1 ++ zs2) (hn : n = n1.dsum n2) (hy : y = y1 ++ y2) :
    (obsNormal S zs n).logpdfFull (fun i => y.getD i 0) =
      (obsNormal S zs1 n1).logpdfFull (fun i => y1.getD i 0) + (obsNormal S1 zs2 n2).logpdfFull fun i => y2.getD i 0 := by
  subst hz hn hy
  exact hu.chain p1 pj hl

/-- **C37.** In any reading and in all notations: the log-density of pairs and further pairs is the log-density of the first plus the
log-density of the further ones under the measure that is conditioned on the first. Data may be missing. -/
theorem C37_reading (h : I.Reads ops) (hf : I.Firm ops) (ht : Tells (Dead G) D ops) (c : Conditioned ops b m l1 m1)
    (e1 : Logpdf ops b1 m l1 r1) (e2 : Logpdf ops b2 m1 l2 r2) (ej : Logpdf ops bj m (l1 ++ l2) rj)
    (hl1 : ∀ e ∈ l1, FitsV G e) (hl2 : ∀ e ∈ l2, FitsV G e) (ha : ∀ e ∈ l2, Attached (runOps b {}) m e.1.p)
    {zss1 zss2 : List (List V)} (k1 : I.Blocks m (l1.map available) zss1) (k2 : I.Blocks m (l2.map available) zss2) : rj = r1 + r2 := by
  obtain ⟨bq, o, hpre, g, ho, ha'⟩ := c.gives ht hl1
  have k2' : I.Blocks m1 (l2.map available) zss2 := by
    have hF : ∀ e ∈ l2.map available, I.F m1 e.1.p = I.F m e.1.p := fun e he => by
      obtain ⟨e', he', rfl⟩ := List.mem_map.1 he
      exact (g.law h).1 _ (attached_pre (ha e' he') hpre)
    clear e2 ej hl2 ha
    generalize l2.map available = l at *
    induction k2 with
    | nil => exact .nil
    | cons k _ ih => exact .cons (by rw [hF _ (by simp)]; exact k) (ih fun e he => hF e (by simp [he]))
  have kj : I.Blocks m ((l1 ++ l2).map available) (zss1 ++ zss2) := by
    rw [List.map_append]
    exact List.rel_append k1 k2
  obtain ⟨u1, p1⟩ := g.blocks_any h hf ho k1 (C := G) fun e he => by
    obtain ⟨e', he', rfl⟩ := List.mem_map.1 he
    exact (hl1 e' he').fits
  obtain ⟨v1, _⟩ := e1.value h ht hl1 k1
  obtain ⟨v2, _⟩ := e2.value h ht hl2 k2'
  obtain ⟨vj, pj⟩ := ej.value h ht (fun e he => (List.mem_append.1 he).elim (hl1 e) (hl2 e)) kj
  rw [v1, v2, vj]
  exact chain_of u1 p1 pj k1.sizes.2.2 List.flatten_append (by rw [List.map_append, List.map_append, blockDiag_append])
    (by rw [List.map_append, List.flatMap_append])

/-- **C37.** The same in regular programs. -/
theorem C37_regular (h : Regular G ops) (ht : Tells (Dead G) D ops) (c : Conditioned ops b m l1 m1)
    (e1 : Logpdf ops b1 m l1 r1) (e2 : Logpdf ops b2 m1 l2 r2) (ej : Logpdf ops bj m (l1 ++ l2) rj)
    (hl1 : ∀ e ∈ l1, FitsV G e) (hl2 : ∀ e ∈ l2, FitsV G e) (ha : ∀ e ∈ l2, Attached (runOps b {}) m e.1.p) : rj = r1 + r2 := by
  obtain ⟨bq, o, hpre, g, ho, ha'⟩ := c.gives ht hl1
  obtain ⟨zss1, k1⟩ := h.blocks (l := l1.map available) (m := m) (fun e he => by
    obtain ⟨e', he', rfl⟩ := List.mem_map.1 he
    exact (hl1 e' he').fits) fun e he => by
    obtain ⟨e', he', rfl⟩ := List.mem_map.1 he
    exact g.attached_prior (ha' e' he')
  obtain ⟨zss2, k2⟩ := h.blocks (l := l2.map available) (m := m) (fun e he => by
    obtain ⟨e', he', rfl⟩ := List.mem_map.1 he
    exact (hl2 e' he').fits) fun e he => by
    obtain ⟨e', he', rfl⟩ := List.mem_map.1 he
    exact g.attached_prior (attached_pre (ha e' he') hpre)
  exact C37_reading h.reads h.firm ht c e1 e2 ej hl1 hl2 ha k1 k2

end

/-! ## Joint samples -/

/-- The pieces are taken one after the other. -/
theorem splitRows_get {α : Type} (s : List α) : ∀ (ns1 : List ℕ) (n : ℕ) (ns2 : List ℕ) (i : ℕ),
    (splitRows s i (ns1 ++ n :: ns2))[ns1.length]? = some ((s.drop (i + ns1.sum)).take n)
  | [], n, ns2, i => by simp [splitRows]
  | k :: ns1, n, ns2, i => by
    have := splitRows_get s ns1 n ns2 (i + k)
    simpa [splitRows, Nat.add_assoc] using this

theorem splitRows_sizes {α : Type} (s : List α) : ∀ (ns : List ℕ) (i : ℕ), i + ns.sum ≤ s.length → (splitRows s i ns).map List.length = ns
  | [], _, _ => rfl
  | n :: ns, i, h => by
    rw [List.sum_cons] at h
    rw [splitRows, List.map_cons, splitRows_sizes s ns (i + n) (by omega), List.length_take, List.length_drop, Nat.min_eq_left (by omega)]

theorem splitRows_length {α : Type} (s : List α) : ∀ (ns : List ℕ) (i : ℕ), (splitRows s i ns).length = ns.length
  | [], _ => rfl
  | n :: ns, i => by simp [splitRows, splitRows_length s ns]

theorem splitRows_flatten {α : Type} (s : List α) : ∀ (ns : List ℕ) (i : ℕ), (splitRows s i ns).flatten = (s.drop i).take ns.sum
  | [], _ => by simp [splitRows]
  | n :: ns, i => by
    rw [splitRows, List.flatten_cons, splitRows_flatten s ns, List.sum_cons, List.take_add, List.drop_drop]

theorem PDIn.pre {ops t : List Op} {m : MId} {obs : Obs} (h : PDIn (runOps (ops ++ t) {}) m obs) : PDIn (runOps ops {}) m obs := by
  cases obs with
  | exact => exact fun A K hA hK => h A K (C05_kernel_call hA) hK
  | pseudo => exact fun A K Z u hA hK hZ hu => h A K Z u (C05_kernel_call hA) hK (C05_kernel_call hZ) (C05_elwise_call hu)

theorem Regular.pre {G : Dom} {ops : List Op} (h : Regular G ops) {b : List Op} (hb : b <+: ops) : Regular G b := by
  obtain ⟨t, rfl⟩ := hb
  exact ⟨⟨h.toTame.pre, fun before m obs after e hm => (h.pd before m obs (after ++ t) (by rw [e]; simp) hm).pre⟩⟩

/-- An FDD of a process at rows at which it can be called, with noise of the right size. -/
def FitsF (G : Dom) (f : Fdd) : Prop := ∃ xs, f.x = .num xs ∧ Rows (G f.p) xs ∧ f.noise.r = xs.length ∧ f.noise.c = xs.length

/-- Entries of blocks on the diagonal. -/
theorem blockDiag_entries : ∀ (Ms1 : List Mat) (A : Mat) (Ms2 : List Mat) (Ms1' : List Mat) (B : Mat) (Ms2' : List Mat),
    Ms1 ++ A :: Ms2 = Ms1' ++ B :: Ms2' → (∀ M ∈ Ms1 ++ A :: Ms2, M.c = M.r) → ∀ a < A.r, ∀ b < B.c,
    (Mat.blockDiag (Ms1 ++ A :: Ms2)).e ((Ms1.map (·.r)).sum + a) ((Ms1'.map (·.r)).sum + b) =
      if Ms1.length = Ms1'.length then A.e a b else 0
  | [], A, Ms2, [], B, Ms2', e, hc, a, ha, b, hb => by
    cases e
    simp [Mat.blockDiag, Mat.dsum, ha, hb]
  | [], A, Ms2, M :: Ms1', B, Ms2', e, hc, a, ha, b, hb => by
    cases e
    have := hc A (by simp)
    simp [Mat.blockDiag, Mat.dsum, ha, this]
    omega
  | M :: Ms1, A, Ms2, [], B, Ms2', e, hc, a, ha, b, hb => by
    cases e
    simp [Mat.blockDiag, Mat.dsum, hb]
    omega
  | M :: Ms1, A, Ms2, M' :: Ms1', B, Ms2', e, hc, a, ha, b, hb => by
    have e1 := (List.cons.inj e).1
    have e2 : Ms1 ++ A :: Ms2 = Ms1' ++ B :: Ms2' := (List.cons.inj e).2
    subst e1
    have hM := hc M (by simp)
    have := blockDiag_entries Ms1 A Ms2 Ms1' B Ms2' e2 (fun M hM => hc M (by simp at hM ⊢; tauto)) a ha b hb
    simp only [List.map_cons, List.sum_cons, List.length_cons, Nat.add_right_cancel_iff, List.cons_append, Mat.blockDiag, Mat.dsum]
    rw [if_neg (by omega), if_neg (by omega)]
    rw [← this, hM]
    congr 1 <;> omega

theorem blockDiag_size : ∀ {Ms : List Mat}, (∀ M ∈ Ms, M.c = M.r) →
    (Mat.blockDiag Ms).r = (Ms.map (·.r)).sum ∧ (Mat.blockDiag Ms).c = (Ms.map (·.r)).sum
  | [], _ => ⟨rfl, rfl⟩
  | M :: Ms, h => by
    obtain ⟨h1, h2⟩ := blockDiag_size (Ms := Ms) fun M hM => h M (by simp [hM])
    have := h M (by simp)
    simp only [Mat.blockDiag, Mat.dsum, List.map_cons, List.sum_cons]
    omega

theorem dsum_posDef {A B : Mat} (hA : (A.sq A.r).PosDef) (hc : A.c = A.r) (hB : (B.sq B.r).PosDef) :
    ((A.dsum B).sq (A.dsum B).r).PosDef := by
  show ((A.dsum B).sq (A.r + B.r)).PosDef
  have he : ((A.dsum B).sq (A.r + B.r)).submatrix finSumFinEquiv finSumFinEquiv = fromBlocks (A.sq A.r) 0 0 (B.sq B.r) := by
    ext i j
    rcases i with i | i <;> rcases j with j | j <;>
      simp [Mat.sq, Mat.dsum, hc]
  have hp : (fromBlocks (A.sq A.r) 0 0 (B.sq B.r)).PosDef := by
    refine PosDef.of_dotProduct_mulVec_pos (IsHermitian.fromBlocks hA.1 (by simp) hB.1) fun w hw => ?_
    have e : star w ⬝ᵥ (fromBlocks (A.sq A.r) 0 0 (B.sq B.r)) *ᵥ w =
        star (w ∘ Sum.inl) ⬝ᵥ A.sq A.r *ᵥ (w ∘ Sum.inl) + star (w ∘ Sum.inr) ⬝ᵥ B.sq B.r *ᵥ (w ∘ Sum.inr) := by
      rw [fromBlocks_mulVec, dotProduct, Fintype.sum_sum_type]
      simp [dotProduct]
    rw [e]
    have h1 := hA.posSemidef.dotProduct_mulVec_nonneg (w ∘ Sum.inl)
    have h2 := hB.posSemidef.dotProduct_mulVec_nonneg (w ∘ Sum.inr)
    by_cases hl : w ∘ Sum.inl = 0
    · have hr : w ∘ Sum.inr ≠ 0 := fun hr => hw (by
        funext i
        rcases i with i | i
        · exact congrFun hl i
        · exact congrFun hr i)
      have := hB.dotProduct_mulVec_pos hr
      linarith
    · have := hA.dotProduct_mulVec_pos hl
      linarith
  rw [← he] at hp
  have := hp.submatrix finSumFinEquiv.symm.injective
  simpa using this

theorem blockDiag_posDef : ∀ {Ms : List Mat}, (∀ M ∈ Ms, M.c = M.r ∧ (M.sq M.r).PosDef) →
    ((Mat.blockDiag Ms).sq (Mat.blockDiag Ms).r).PosDef
  | [], _ => by
    refine PosDef.of_dotProduct_mulVec_pos ?_ fun w hw => ?_
    · ext i
      exact i.elim0
    · exact absurd (funext fun i => i.elim0) hw
  | M :: Ms, h => dsum_posDef (h M (by simp)).2 (h M (by simp)).1 (blockDiag_posDef fun M hM => h M (by simp [hM]))
section
variable {G : Dom} {ops b : List Op} {m : MId} {ord : List MId} {fs : List Fdd} {os : List Op} {f' : Fdd}

/-- The joint distribution of FDDs under a measure, as it is computed for samples and log-densities: what is computed exists, and consists of
the means, covariances and noises of the FDDs, one after the other. -/
theorem joint_normal (h : Regular G ops) (hs : sampleArgs (runOps b {}) ord m fs = some (os, f')) (hb : b ++ os <+: ops)
    (hne : fs ≠ []) (hf : ∀ f ∈ fs, FitsF G f) : ∃ v V, FddNormal (runOps (b ++ os) {}) f' v V ∧
      v.length = (fs.map fun f => numElements f.x).sum ∧ V.r = (fs.map fun f => numElements f.x).sum ∧ V.c = V.r ∧
      (∀ f ∈ fs, Attached (runOps ops {}) m f.p) ∧
      (∃ (K : Mat) (zs : List RV), K.add (Mat.blockDiag (fs.map (·.noise))) = some V ∧ K.Eqv (covMat ((reading (b ++ os)).S m) zs zs)) ∧
      (∀ fs1 f fs2, fs = fs1 ++ f :: fs2 → ∀ u, MeanCall (runOps ops {}) m f.p f.x u →
        ∀ a < numElements f.x, v.getD ((fs1.map fun f => numElements f.x).sum + a) 0 = u.getD a 0) ∧
      ∀ fs1 f fs2, fs = fs1 ++ f :: fs2 → ∀ fs1' g fs2', fs = fs1' ++ g :: fs2' → ∀ B, KernelCall (runOps ops {}) m f.p g.p f.x g.x B →
        ∀ a < numElements f.x, ∀ c < numElements g.x,
          V.e ((fs1.map fun f => numElements f.x).sum + a) ((fs1'.map fun f => numElements f.x).sum + c) =
            B.e a c + if fs1.length = fs1'.length then f.noise.e a c else 0 := by
  obtain ⟨⟨o, f0⟩, h0, hs1⟩ := bind_some hs
  obtain ⟨⟨o', f1⟩, h1, hs2⟩ := bind_some hs1
  cases hs2
  rw [after_runOps] at h1
  obtain ⟨e1, e2, hat, hat', hgm⟩ := callFdd_parts h1
  obtain ⟨rfl, rfl⟩ := combine_parts h0
  have hreg := h.pre hb
  subst e1
  simp only at e2 hat hat' hgm hb hreg h1
  subst e2
  generalize hB : b ++ [Op.cross (fs.map (·.p)) ord, .call m (runOps b {}).gps.length] = B at *
  have hB1 : b ++ [Op.cross (fs.map (·.p)) ord] ++ [.call m (runOps b {}).gps.length] = B := by rw [← hB]; simp
  rw [hB1] at hat' hgm
  have hrun : Runs B b (.cross (fs.map (·.p)) ord) (runOps b {}).gps.length := ⟨⟨_, hB.symm⟩, rfl, m, hat⟩
  have hatB : Attached (runOps B {}) m (runOps b {}).gps.length := hB1 ▸ attached_append _ hat
  have hcall : Runs B (b ++ [Op.cross (fs.map (·.p)) ord]) (.call m (runOps b {}).gps.length)
      (runOps (b ++ [Op.cross (fs.map (·.p)) ord]) {}).gps.length :=
    ⟨⟨[], hB1.symm⟩, rfl, m, hB1.symm ▸ hat'⟩
  let pts : Fdd → List Pt := fun f => match f.x with | .num xs => xs | _ => []
  have hpts : ∀ f ∈ fs, f.x = .num (pts f) := fun f hf' => by
    obtain ⟨xs, hx, _⟩ := hf f hf'
    simp [pts, hx]
  have hC : ∀ f ∈ fs, Rows (G f.p) (pts f) := fun f hf' => by
    obtain ⟨xs, hx, hr, _⟩ := hf f hf'
    have := hpts f hf'
    rw [hx] at this
    cases this
    exact hr
  have hnum : ∀ f ∈ fs, numElements f.x = (pts f).length := fun f hf' => by rw [hpts f hf']; rfl
  have hnoise : ∀ f ∈ fs, f.noise.r = (pts f).length ∧ f.noise.c = (pts f).length := fun f hf' => by
    obtain ⟨xs, hx, _, s1, s2⟩ := hf f hf'
    have := hpts f hf'
    rw [hx] at this
    cases this
    exact ⟨s1, s2⟩
  have hz : Input.tup (fs.map fun f => .fdd f.p f.x) = .tup ((fs.map fun f => (f.p, pts f)).map fun e => .fdd e.1 (.num e.2)) := by
    rw [List.map_map]
    congr 1
    exact List.map_congr_left fun f hf' => by rw [hpts f hf']; rfl
  have hM := hrun.of (d := .cross (fs.map (·.p))) rfl
  have hfat : ∀ f ∈ fs, Attached (runOps B {}) m f.p := fun f hf' =>
    hreg.reads.refs hatB hM f.p (by simpa [ProcDef.refs] using ⟨f, hf', rfl⟩)
  obtain ⟨cm, _, A, hA, cA⟩ := C15_regular hreg hrun hat hatB (l := fs.map fun f => (f.p, pts f)) (by simpa using hne)
    (fun e he => by
      obtain ⟨f, hf', rfl⟩ := List.mem_map.1 he
      exact List.mem_map.2 ⟨f, hf', rfl⟩) (fun e he => by
      obtain ⟨f, hf', rfl⟩ := List.mem_map.1 he
      exact hC f hf') hz
  obtain ⟨⟨_, vs, _, hF, _, lvs⟩, ⟨A', vs', hA', hF', hE⟩, _⟩ := hreg.cross_calls hM hat (z := .tup (fs.map fun f => .fdd f.p f.x)) (by
    refine ⟨_, by simpa using hne, rfl, fun a ha => ?_⟩
    obtain ⟨f, hf', rfl⟩ := List.mem_map.1 ha
    exact ⟨f.p, List.mem_map.2 ⟨f, hf', rfl⟩, pts f, by rw [hpts f hf'], hC f hf'⟩)
  rw [hA'.unique hA] at hE
  rw [hF] at hF'; cases hF'
  have lsum : numElements (.tup (fs.map fun f => .fdd f.p f.x)) = (fs.map fun f => numElements f.x).sum := by
    show numElementsL _ = _
    rw [← numElementsL_sum, List.map_map]
    rfl
  have rA : A.r = (fs.map fun f => numElements f.x).sum := by rw [hE.r, ← lsum, ← lvs]; rfl
  have sA : A.c = (fs.map fun f => numElements f.x).sum := by rw [hE.c, ← lsum, ← lvs]; rfl
  have hu : ∀ f, ∃ u, f ∈ fs → MeanCall (runOps B {}) m f.p f.x u ∧ u.length = numElements f.x := fun f => by
    by_cases hf' : f ∈ fs
    · obtain ⟨u, hu, lu⟩ := hreg.mean (hfat f hf') (hC f hf')
      exact ⟨u, fun _ => ⟨by rw [hpts f hf']; exact hu, by rw [lu, hnum f hf']⟩⟩
    · exact ⟨[], fun h => (hf' h).elim⟩
  choose u hu using hu
  have hv := cm (fs.map u) (by
    rw [List.forall₂_map_left_iff, List.forall₂_map_right_iff, List.forall₂_same]
    intro f hf'
    rw [← hpts f hf']
    exact (hu f hf').1)
  have ns := blockDiag_size (Ms := fs.map (·.noise)) fun M hM => by
    obtain ⟨f, hf', rfl⟩ := List.mem_map.1 hM
    rw [(hnoise f hf').1, (hnoise f hf').2]
  have nsum : ∀ l : List Fdd, (∀ f ∈ l, f ∈ fs) → ((l.map (·.noise)).map (·.r)).sum = (l.map fun f => numElements f.x).sum := fun l hl => by
    rw [List.map_map]
    congr 1
    exact List.map_congr_left fun f hf' => by rw [Function.comp_apply, (hnoise f (hl f hf')).1, hnum f (hl f hf')]
  have psum : ∀ l : List Fdd, (∀ f ∈ l, f ∈ fs) →
      ((l.map fun f => (f.p, pts f)).map fun e => e.2.length).sum = (l.map fun f => numElements f.x).sum := fun l hl => by
    rw [List.map_map]
    congr 1
    exact List.map_congr_left fun f hf' => by rw [Function.comp_apply, hnum f (hl f hf')]
  rw [nsum fs fun _ h => h] at ns
  have hadd : A.add (Mat.blockDiag (fs.map (·.noise))) = some ⟨A.r, A.c, fun i j => A.e i j + (Mat.blockDiag (fs.map (·.noise))).e i j⟩ := by
    rw [Mat.add, if_pos ⟨rA.trans ns.1.symm, sA.trans ns.2.symm⟩]
  obtain ⟨t1, t2, _⟩ := C33_table hcall (hB1.symm ▸ hat') (mem_members.2 hat)
  refine ⟨(fs.map u).flatten, _, ⟨m, A, hgm, ?_, ?_, hadd⟩, ?_, rA, sA.trans rA.symm, ?_, ?_, ?_, ?_⟩
  · obtain ⟨a, n, ha, hv⟩ := hv
    exact ⟨a, n, by rw [t1]; exact ha, hv⟩
  · obtain ⟨k, n, hk, hA⟩ := hA
    exact ⟨k, n, by rw [t2]; exact hk, hA⟩
  · rw [List.length_flatten, List.map_map]
    congr 1
    exact List.map_congr_left fun f hf' => (hu f hf').2
  · exact fun f hf' => attached_pre (hfat f hf') hb
  · exact ⟨A, vs, hadd, hE⟩
  · intro fs1 f fs2 e u' hu' a ha
    have hf' : f ∈ fs := by rw [e]; simp
    have hU := (hu f hf').1
    obtain ⟨t, rfl⟩ := hb
    rw [hu'.unique (C05_mean_call hU)]
    have l1 : (fs1.map fun f => numElements f.x).sum = (fs1.map u).flatten.length := by
      rw [List.length_flatten, List.map_map]
      congr 1
      exact List.map_congr_left fun g hg => (hu g (by rw [e]; simp [hg])).2.symm
    rw [e, List.map_append, List.map_cons, l1]
    exact getD_flatten _ _ _ _ (by rw [(hu f hf').2]; exact ha)
  · intro fs1 f fs2 e fs1' g fs2' e' K hK a ha c hc
    have hf' : f ∈ fs := by rw [e]; simp
    have hg' : g ∈ fs := by rw [e']; simp
    obtain ⟨K', hK', _⟩ := hreg.kernel (hfat f hf') (hfat g hg') (hC f hf') (hC g hg')
    have hKK : K = K' := by
      obtain ⟨t, rfl⟩ := hb
      rw [hpts f hf', hpts g hg'] at hK
      exact hK.unique (C05_kernel_call hK')
    subst hKK
    have h1 := cA (fs1.map fun f => (f.p, pts f)) (f.p, pts f) (fs2.map fun f => (f.p, pts f)) (by rw [e]; simp)
      (fs1'.map fun f => (f.p, pts f)) (g.p, pts g) (fs2'.map fun f => (f.p, pts f)) (by rw [e']; simp) K hK'
      a (by rw [← hnum f hf']; exact ha) c (by rw [← hnum g hg']; exact hc)
    rw [psum fs1 fun _ h => by rw [e]; simp [h], psum fs1' fun _ h => by rw [e']; simp [h]] at h1
    have en : fs.map (·.noise) = fs1.map (·.noise) ++ f.noise :: fs2.map (·.noise) := by rw [e]; simp
    have en' : fs.map (·.noise) = fs1'.map (·.noise) ++ g.noise :: fs2'.map (·.noise) := by rw [e']; simp
    have h2 := blockDiag_entries (fs1.map (·.noise)) f.noise (fs2.map (·.noise)) (fs1'.map (·.noise)) g.noise (fs2'.map (·.noise))
      (en.symm.trans en') (fun M hM => by
        rw [← en] at hM
        obtain ⟨f, hf', rfl⟩ := List.mem_map.1 hM
        rw [(hnoise f hf').1, (hnoise f hf').2]) a (by rw [(hnoise f hf').1, ← hnum f hf']; exact ha) c
        (by rw [(hnoise g hg').2, ← hnum g hg']; exact hc)
    rw [← en, nsum fs1 fun _ h => by rw [e]; simp [h], nsum fs1' fun _ h => by rw [e']; simp [h], List.length_map, List.length_map] at h2
    show A.e _ _ + (Mat.blockDiag (fs.map (·.noise))).e _ _ = _
    rw [h1, h2]

/-- Entries of the pieces of a sample. -/
theorem sampleResult_entry {fs1 fs2 : List Fdd} {f : Fdd} {α : Type} (s : List α) (d : α) {a : ℕ} (ha : a < numElements f.x) :
    ((sampleResult (fs1 ++ f :: fs2) s).getD fs1.length []).getD a d = s.getD ((fs1.map fun f => numElements f.x).sum + a) d := by
  unfold sampleResult
  have := splitRows_get s (fs1.map fun f => numElements f.x) (numElements f.x) (fs2.map fun f => numElements f.x) 0
  rw [List.length_map] at this
  rw [List.map_append, List.map_cons, List.getD_eq_getElem?_getD (l := splitRows ..), this]
  simp [List.getD_eq_getElem?_getD, ha]

open MeasureTheory ProbabilityTheory in
/-- **C29.** In regular programs, what `measure.sample(state, n, *fdds)` returns for single-output processes at numeric inputs: the pieces have the
sizes of the FDDs, together they are the sample, and if the sample is distributed like the joint distribution under the measure, the piece of
an FDD has the mean of its process, and pieces have the covariances of the processes, plus noise. -/
theorem C29_regular (h : Regular G ops) (hs : sampleArgs (runOps b {}) ord m fs = some (os, f')) (hb : b ++ os <+: ops)
    (hne : fs ≠ []) (hf : ∀ f ∈ fs, FitsF G f) : ∃ v V, FddNormal (runOps (b ++ os) {}) f' v V ∧
      (∀ {α : Type} (s : List α), s.length = V.r → (sampleResult fs s).flatten = s ∧
        (sampleResult fs s).map List.length = fs.map fun f => numElements f.x) ∧
      ∀ {Ω : Type} [MeasurableSpace Ω] {P : Measure Ω} {X : Ω → Fin V.r → ℝ}, IsNormal P X (asNormal (.col v) V) →
        (∀ fs1 f fs2, fs = fs1 ++ f :: fs2 → ∀ u, MeanCall (runOps ops {}) m f.p f.x u → ∀ a < numElements f.x,
          P[fun ω => ((sampleResult fs (List.ofFn (X ω))).getD fs1.length []).getD a 0] = u.getD a 0) ∧
        ∀ fs1 f fs2, fs = fs1 ++ f :: fs2 → ∀ fs1' g fs2', fs = fs1' ++ g :: fs2' → ∀ K, KernelCall (runOps ops {}) m f.p g.p f.x g.x K →
          ∀ a < numElements f.x, ∀ c < numElements g.x,
          cov[fun ω => ((sampleResult fs (List.ofFn (X ω))).getD fs1.length []).getD a 0,
            fun ω => ((sampleResult fs (List.ofFn (X ω))).getD fs1'.length []).getD c 0; P] =
              K.e a c + if fs1.length = fs1'.length then f.noise.e a c else 0 := by
  obtain ⟨v, V, hn, lv, rV, cV, _, _, hm, hk⟩ := joint_normal h hs hb hne hf
  refine ⟨v, V, hn, fun s hs => ?_, fun {Ω _ P X} hX => ?_⟩
  · unfold sampleResult
    refine ⟨?_, ?_⟩
    · rw [splitRows_flatten, List.drop_zero, ← rV, ← hs, List.take_length]
    · exact splitRows_sizes s _ 0 (by rw [← rV, hs]; omega)
  · have lt : ∀ fs1 f fs2, fs = fs1 ++ f :: fs2 → ∀ a < numElements f.x, (fs1.map fun f => numElements f.x).sum + a < V.r := by
      intro fs1 f fs2 e a ha
      rw [rV, e]
      simp only [List.map_append, List.map_cons, List.sum_append, List.sum_cons]
      omega
    have row : ∀ fs1 f fs2, fs = fs1 ++ f :: fs2 → ∀ a (ha : a < V.r), ∀ c < numElements f.x, a = (fs1.map fun f => numElements f.x).sum + c →
        (fun ω => ((sampleResult fs (List.ofFn (X ω))).getD fs1.length []).getD c 0) = fun ω => X ω ⟨a, ha⟩ := by
      intro fs1 f fs2 e a ha c hc ea
      funext ω
      rw [e, sampleResult_entry _ _ hc, ← ea, getD_lt (by simpa using ha)]
      simp
    refine ⟨fun fs1 f fs2 e u hu a ha => ?_, fun fs1 f fs2 e fs1' g fs2' e' K hK a ha c hc => ?_⟩
    · rw [row fs1 f fs2 e _ (lt fs1 f fs2 e a ha) a ha rfl, hX.mean, ← hm fs1 f fs2 e u hu a ha]
      rfl
    · rw [row fs1 f fs2 e _ (lt fs1 f fs2 e a ha) a ha rfl, row fs1' g fs2' e' _ (lt fs1' g fs2' e' c hc) c hc rfl, hX.cov,
        ← hk fs1 f fs2 e fs1' g fs2' e' K hK a ha c hc]
      rfl

end

/-! ## Log-densities exist -/

/-- If the noise is positive definite, then the log-density can be computed. -/
theorem fddLogpdf_of {w : World} {f : Fdd} {v : List ℝ} {K N V : Mat} {y : Vals} {S : SO RV} {zs : List RV} (hn : FddNormal w f v V)
    (hV : K.add N = some V) (hE : K.Eqv (covMat S zs zs)) (hS : S.Pos) (hN : (N.sq N.r).PosDef)
    (hv : v.length = V.r) (hy : y.length = V.r) : ∃ r, FddLogpdf w f y r := by
  have hsz : K.r = N.r ∧ K.c = N.c := by
    by_contra hne
    rw [Mat.add, if_neg hne] at hV
    cases hV
  have hV' : V = ⟨K.r, K.c, fun i j => K.e i j + N.e i j⟩ := by
    rw [Mat.add, if_pos hsz] at hV
    exact (Option.some.inj hV).symm
  subst hV'
  have hr : K.r = zs.length := hE.r
  have hp : (K.sq K.r).PosSemidef := by
    have h1 := gram_posSemidef S zs hS
    have h2 := h1.submatrix (Fin.cast hr)
    convert h2 using 1
    ext i j
    have hi : (i : ℕ) < zs.length := by omega
    have hj : (j : ℕ) < zs.length := by omega
    show K.e i j = S.C (zs.get _) (zs.get _)
    rw [hE.e i hi j hj]
    simp only [covMat]
    rw [getD_lt hi, getD_lt hj]
    rfl
  have hW : ((asNormal (.col v) ⟨K.r, K.c, fun i j => K.e i j + N.e i j⟩).var).PosDef := by
    have hN' : (N.sq K.r).PosDef := by rw [hsz.1]; exact hN
    have := hN'.posSemidef_add hp
    exact this
  refine ⟨_, ⟨v, _, hn, hE.c.trans hE.r.symm, hv, hy, ?_, rfl⟩⟩
  refine hW.submatrix (e := fun i => List.get _ i) fun i j hij => ?_
  exact (List.nodup_iff_injective_get.1 ((List.nodup_finRange _).filter _)) hij

section
variable {G : Dom} {ops b : List Op} {m : MId} {ord : List MId} {os : List Op} {f : Fdd} {y : Vals} {l : List (Fdd × Vals)}

/-- For positive definite noise, `m.logpdf((fdd1, y1), ...)` returns. -/
theorem fddLogpdf_pairs (h : Regular G ops) (hne : l ≠ [])
    (hl : ∀ e ∈ l, FitsV G e) (hN : ∀ e ∈ l, (e.1.noise.sq e.1.noise.r).PosDef)
    (hc : logpdfArgs (runOps b {}) ord m (l.map pairArg) = some (os, f, y)) (hb : b ++ os <+: ops) : ∃ r, FddLogpdf (runOps (b ++ os) {}) f y r := by
  have hc0 : (do
      let l ← pairs? (l.map pairArg)
      let (o, f) ← combine (runOps b {}) ord (l.map (·.1))
      let (o', f) ← callFdd (o.after (runOps b {})) m f
      pure ([o, o'], f, l.flatMap (·.2))) = some (os, f, y) := by
    cases l with
    | nil => exact hc
    | cons e l => cases l <;> exact hc
  obtain ⟨l', hl', hc1⟩ := bind_some hc0
  have : l' = l := by
    cases l with
    | nil => cases hl'
    | cons e l =>
      have h1 := pairs_mapM (e :: l)
      have h2 : ((e :: l).map pairArg).mapM Arg.pair? = some l' := hl'
      rw [h1] at h2
      exact (Option.some.inj h2).symm
  subst this
  obtain ⟨⟨o, f0⟩, h0, hc2⟩ := bind_some hc1
  obtain ⟨⟨o', f1⟩, h1, hc3⟩ := bind_some hc2
  cases hc3
  have hs : sampleArgs (runOps b {}) ord m (l'.map (·.1)) = some ([o, o'], f) := by
    unfold sampleArgs
    rw [h0]
    show (do let (o', f) ← callFdd (o.after (runOps b {})) m f0; pure ([o, o'], f)) = _
    rw [h1]
    rfl
  obtain ⟨v, V, hV, lv, rV, cV, _, ⟨K, zs, hK, hE⟩, _⟩ := joint_normal h hs hb (by simpa using hne) fun f hf => by
    obtain ⟨e, he, rfl⟩ := List.mem_map.1 hf
    obtain ⟨xs, h1, h2, h3, h4, _⟩ := hl e he
    exact ⟨xs, h1, h2, h3, h4⟩
  have hreg := h.pre hb
  obtain ⟨r, hr⟩ := fddLogpdf_of (y := l'.flatMap (·.2)) hV hK hE
    (hreg.pos m)
    (blockDiag_posDef fun M hM => by
      obtain ⟨f, hf, rfl⟩ := List.mem_map.1 hM
      obtain ⟨e, he, rfl⟩ := List.mem_map.1 hf
      obtain ⟨xs, h1, h2, h3, h4, _⟩ := hl e he
      exact ⟨h4.trans h3.symm, hN e he⟩) (lv.trans rV.symm) (by
      rw [rV, List.length_flatMap, List.map_map]
      congr 1
      refine List.map_congr_left fun e he => ?_
      obtain ⟨xs, h1, h2, h3, h4, h5⟩ := hl e he
      rw [Function.comp_apply, h1, h5]; rfl)
  exact ⟨r, hr⟩

theorem logpdf_pairs (h : Regular G ops) (hne : l ≠ [])
    (hl : ∀ e ∈ l, FitsV G e) (hN : ∀ e ∈ l, (e.1.noise.sq e.1.noise.r).PosDef)
    (hc : logpdfArgs (runOps b {}) ord m (l.map pairArg) = some (os, f, y)) (hb : b ++ os <+: ops) : ∃ r, Logpdf ops b m l r :=
  (fddLogpdf_pairs h hne hl hN hc hb).imp fun _ hr => .direct (.pairs l) hc hb hr

/-- The same for `m.logpdf(fdd, y)`. -/
theorem fddLogpdf_plain (h : Regular G ops) {e : Fdd × Vals}
    (hl : FitsV G e) (hN : (e.1.noise.sq e.1.noise.r).PosDef)
    (hc : logpdfArgs (runOps b {}) ord m [.fdd e.1, .vals e.2] = some (os, f, y)) (hb : b ++ os <+: ops) : ∃ r, FddLogpdf (runOps (b ++ os) {}) f y r := by
  obtain ⟨⟨o, f1⟩, h1, hc1⟩ := bind_some hc
  cases hc1
  obtain ⟨e1, e2, hat, hat', hgm⟩ := callFdd_parts h1
  subst e1
  have hreg := h.pre hb
  obtain ⟨xs, hx, hC, s1, s2, s3⟩ := hl
  have hatB : Attached (runOps (b ++ [.call m e.1.p]) {}) m e.1.p := attached_append _ hat
  obtain ⟨t1, t2, _⟩ := C33_table (ops := b ++ [.call m e.1.p]) ⟨⟨[], rfl⟩, rfl, m, hat'⟩ hat' (mem_members.2 hat)
  obtain ⟨v, hv, lv⟩ := hreg.mean hatB hC
  obtain ⟨K, hK, rK, cK⟩ := hreg.kernel hatB hatB hC hC
  obtain ⟨vs, hF, lF⟩ := hreg.value hatB hC
  have hE := hreg.kernel_eq hatB hatB hC hC hK hF hF
  have hV : FddNormal (runOps (b ++ [.call m e.1.p]) {}) f v ⟨K.r, K.c, fun i j => K.e i j + e.1.noise.e i j⟩ := by
    rw [e2]
    refine ⟨m, K, hgm, ?_, ?_, if_pos ⟨rK.trans s1.symm, cK.trans s2.symm⟩⟩
    · obtain ⟨a, n, ha, hv⟩ := hv
      exact ⟨a, n, by rw [t1]; exact ha, by simpa [hx] using hv⟩
    · obtain ⟨k, n, hk, hA⟩ := hK
      exact ⟨k, n, by rw [t2]; exact hk, by simpa [hx] using hA⟩
  obtain ⟨r, hr⟩ := fddLogpdf_of (y := e.2) hV (if_pos ⟨rK.trans s1.symm, cK.trans s2.symm⟩) hE
    (hreg.pos m)
    hN (lv.trans rK.symm) (s3.trans rK.symm)
  exact ⟨r, hr⟩

theorem logpdf_plain (h : Regular G ops) {e : Fdd × Vals}
    (hl : FitsV G e) (hN : (e.1.noise.sq e.1.noise.r).PosDef)
    (hc : logpdfArgs (runOps b {}) ord m [.fdd e.1, .vals e.2] = some (os, f, y)) (hb : b ++ os <+: ops) : ∃ r, Logpdf ops b m [e] r :=
  (fddLogpdf_plain h hl hN hc hb).imp fun _ hr => .direct (.plain e.1 e.2) hc hb hr

end

/-- Two GPs and the process that consists of both. -/
noncomputable def couple : List Op :=
  [.gp .zero affine none none,
   .gp (.fn (.const 2)) affine (some 0) none,
   .cross [0, 1] [0]]

/-- An FDD of both at one point, and one of the first GP. -/
noncomputable def coupleFdds : List Fdd := [⟨2, .num [[0]], eye 2⟩, ⟨0, .num [[1]], eye 1⟩]

/-- Finding: the rows of FDDs of multi-output processes are not counted. Here the sample of the first GP, whose mean is zero, is the row of the
second one, whose mean is two, and the row of the first one is lost. -/
theorem C29_multi_wrong : ∃ os f' v V, sampleArgs (runOps couple {}) [0] 0 coupleFdds = some (os, f') ∧
    FddNormal (runOps (couple ++ os) {}) f' v V ∧ V.r = 3 ∧ v = [0, 2, 0] ∧
    ∀ {α : Type} (a b c : α), sampleResult coupleFdds [a, b, c] = [[a], [b]] := by
  let ops := couple ++ [.cross [2, 0] [0], .call 0 3]
  let x : Input := .tup [.fdd 2 (.num [[0]]), .fdd 0 (.num [[1]])]
  have hv : MeanCall (runOps ops {}) 0 4 x [0, 2, 0] := ⟨_, 10, rfl, rfl⟩
  obtain ⟨K, hK, hr, hc⟩ : ∃ K, KernelCall (runOps ops {}) 0 4 4 x x K ∧ K.r = 3 ∧ K.c = 3 := ⟨_, ⟨_, 10, rfl, rfl⟩, rfl, rfl⟩
  refine ⟨[.cross [2, 0] [0], .call 0 3], ⟨4, x, Mat.blockDiag [eye 2, eye 1]⟩, _,
    ⟨K.r, K.c, fun i j => K.e i j + (Mat.blockDiag [eye 2, eye 1]).e i j⟩, rfl, ⟨0, K, rfl, hv, hK, ?_⟩, hr, rfl, fun a b c => rfl⟩
  exact if_pos ⟨hr, hc⟩

/-! ## Examples -/

/-- Two GPs; `m.logpdf(fdd1, y1)` with a missing value; the posterior given this; the log-density of a value of the other GP under it; and the
log-density of both under `m`. -/
noncomputable def diary : List Op :=
  [.gp .zero affine none none,
   .gp .zero affine (some 0) none,
   .call 0 0,
   .condition 0 (.exact 0 (.num [[0], [2]]) (rows (eye 3) [0, 2]) [1, 3]),
   .call 1 1,
   .cross [0, 1] [0, 1],
   .call 0 4]

/-- The cross processes of `diary`. -/
def diaryC (p : PId) : Prop := p = 4 ∨ p = 5

instance : DecidablePred diaryC := fun _ => inferInstanceAs (Decidable (_ ∨ _))

theorem diary_fits : FitsV (off diaryC) gappy ∧ FitsV (off diaryC) single :=
  ⟨⟨_, rfl, rows_off (by decide), rfl, rfl, rfl⟩, ⟨_, rfl, rows_off (by decide), rfl, rfl, rfl⟩⟩

theorem diary_noisy : Noisy diary := by
  intro m obs h
  simp only [diary, List.mem_cons, List.not_mem_nil, or_false, reduceCtorEq, false_or, or_false,
    Op.condition.injEq] at h
  obtain ⟨_, rfl⟩ := h
  have : (rows (eye 3) [0, 2]).sq 2 = 1 := by
    ext i j
    show (rows (eye 3) [0, 2]).e i j = _
    rw [one_apply]
    fin_cases i <;> fin_cases j <;> simp [rows, eye]
  show (Mat.sq _ 2).PosDef
  exact this ▸ .one

theorem diary_regular : Regular (off diaryC) diary := by
  refine .of_noisy_off ⟨?_, ?_, ?_, fun m obs h => (diary_noisy m obs h).psd, smooth_of (by simp [diary])⟩ diary_noisy
    (.of_exact (by simp [diary]))
  · have hs := affine_psd
    intro o ho
    simp only [diary, List.mem_cons, List.not_mem_nil, or_false] at ho
    rcases ho with rfl | rfl | rfl | rfl | rfl | rfl | rfl
    all_goals first
      | exact ⟨trivial, trivial, hs⟩
      | trivial
      | (intro h; cases h)
  · refine splits (ops := diary) (P := fun before o => ∀ m, ∀ e ∈ o.written (runOps before {}).gps.length m,
      ¬ diaryC e.1 → e.2.TotalOff diaryC) ⟨?_, ?_, ?_, ?_, ?_, ?_, ?_, trivial⟩
    all_goals
      intro m e he
      first
        | exact (List.not_mem_nil he).elim
        | have he := List.mem_singleton.1 he
          subst he
          first
            | exact fun h => (h (.inl rfl)).elim
            | exact fun h => (h (.inr rfl)).elim
            | exact fun _ => ⟨trivial, trivial⟩
            | exact fun _ => (by decide : ¬ diaryC _)
  · intro before m obs after e hm
    refine splits (ops := diary) (P := fun before o => ∀ m obs, o = .condition m obs → ObsFitsOff diaryC before m obs) ⟨?_, ?_, ?_, ?_, ?_, ?_, ?_, trivial⟩
      before _ after e m obs rfl
    all_goals
      intro m obs e
      first
        | (exfalso; cases e; done)
        | cases e
    · exact ⟨rfl, rfl, rfl, .inl ⟨⟨_, rfl⟩, attached_iff.2 rfl, by decide⟩⟩

theorem diary_tells : Tells (Dead (off diaryC)) (fun _ => 2) diary := by
  rw [dead_off]
  refine splits (ops := diary) (P := fun before o => ∀ m, ∀ e ∈ o.written (runOps before {}).gps.length m,
      Sorted diaryC e ∧ Counts (fun _ => 2) e) ⟨?_, ?_, ?_, ?_, ?_, ?_, ?_, trivial⟩
  all_goals
    intro m e he
    first
      | exact (List.not_mem_nil he).elim
      | have he := List.mem_singleton.1 he
        subst he
        first
          | exact ⟨⟨fun _ => ⟨trivial, trivial⟩, fun h => (by rcases h with h | h <;> cases h)⟩, trivial⟩
          | exact ⟨⟨fun _ => (by decide : ¬ diaryC _), fun h => (by rcases h with h | h <;> cases h)⟩, rfl⟩
          | exact ⟨⟨fun h => (h (.inl rfl)).elim, fun _ => ⟨by simp, by decide⟩⟩, rfl⟩
          | exact ⟨⟨fun h => (h (.inr rfl)).elim, fun _ => (by decide : diaryC _)⟩, rfl⟩

theorem diary_conditioned : Conditioned diary (diary.take 3) 0 [gappy] 1 :=
  .direct (n := 3) (ord := []) (.plain gappy.1 gappy.2) (.inl rfl) rfl ⟨diary.drop 4, rfl⟩ (by decide : 0 < 1) rfl
    (fun e he => by cases List.mem_singleton.1 he; exact attached_iff.2 rfl)

/-- C37 for `diary`. All of the log-densities exist. -/
example : ∃ r1 r2 rj, Logpdf diary (diary.take 2) 0 [gappy] r1 ∧ Logpdf diary (diary.take 4) 1 [single] r2 ∧
    Logpdf diary (diary.take 5) 0 [gappy, single] rj ∧ rj = r1 + r2 := by
  obtain ⟨r1, h1⟩ := logpdf_plain (b := diary.take 2) (ord := []) (m := 0) diary_regular diary_fits.1 (eye_posDef 3 3) rfl
    ⟨diary.drop 3, rfl⟩
  obtain ⟨r2, h2⟩ := logpdf_plain (b := diary.take 4) (ord := []) (m := 1) diary_regular diary_fits.2 (eye_posDef 1 1) rfl
    ⟨diary.drop 5, rfl⟩
  obtain ⟨rj, hj⟩ := logpdf_pairs (b := diary.take 5) (ord := [0, 1]) (m := 0) (l := [gappy, single]) diary_regular (by simp)
    (by simpa using diary_fits) (by
      intro e he
      simp only [List.mem_cons, List.not_mem_nil, or_false] at he
      rcases he with rfl | rfl
      · exact eye_posDef 3 3
      · exact eye_posDef 1 1) rfl ⟨[], rfl⟩
  refine ⟨r1, r2, rj, h1, h2, hj, ?_⟩
  exact C37_regular diary_regular diary_tells diary_conditioned h1 h2 hj (by simpa using diary_fits.1) (by simpa using diary_fits.2)
    (fun e he => by cases List.mem_singleton.1 he; exact attached_iff.2 rfl)

open MeasureTheory ProbabilityTheory in
/-- C29 for `diary`: a joint sample at four points; the first piece belongs to the first process. -/
example : ∃ os f', ∃ (v : List ℝ) (V : Mat), sampleArgs (runOps (diary.take 5) {}) [0, 1] 0 [gappy.1, single.1] = some (os, f') ∧
    FddNormal (runOps (diary.take 5 ++ os) {}) f' v V ∧ V.r = 4 ∧
    ∀ {Ω : Type} [MeasurableSpace Ω] {P : Measure Ω} {X : Ω → Fin V.r → ℝ}, IsNormal P X (asNormal (.col v) V) →
      ∀ K, KernelCall (runOps diary {}) 0 0 1 (.num [[0], [1], [2]]) (.num [[5]]) K →
      cov[fun ω => ((sampleResult [gappy.1, single.1] (List.ofFn (X ω))).getD 0 []).getD 2 0,
        fun ω => ((sampleResult [gappy.1, single.1] (List.ofFn (X ω))).getD 1 []).getD 0 0; P] = K.e 2 0 + 0 := by
  have hf : ∀ f ∈ [gappy.1, single.1], FitsF (off diaryC) f := by
    intro f hf
    simp only [List.mem_cons, List.not_mem_nil, or_false] at hf
    rcases hf with rfl | rfl
    · exact ⟨_, rfl, rows_off (by decide), rfl, rfl⟩
    · exact ⟨_, rfl, rows_off (by decide), rfl, rfl⟩
  have hs : sampleArgs (runOps (diary.take 5) {}) [0, 1] 0 [gappy.1, single.1] = some ([.cross [0, 1] [0, 1], .call 0 4], _) := rfl
  obtain ⟨v, V, h1, h2, h3⟩ := C29_regular diary_regular hs ⟨[], rfl⟩ (by simp) hf
  refine ⟨_, _, v, V, hs, h1, ?_, fun {Ω _ P X} hX K hK => ?_⟩
  · have := (h2 (List.replicate V.r ()) (by simp)).1
    have := congrArg List.length this
    have h4 := congrArg List.sum (h2 (List.replicate V.r ()) (by simp)).2
    rw [List.length_flatten, List.length_replicate] at this
    exact this.symm.trans h4
  · exact (h3 hX).2 [] gappy.1 [single.1] rfl [gappy.1] single.1 [] rfl K hK 2 (by decide) 0 (by decide)

end Stheno
