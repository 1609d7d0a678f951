import Verif.TotalSparse
import Verif.Calls
import Verif.Program

/-!
# Calls return

A state in which calls of means and kernels of single-output processes at numeric inputs always return: every
definition is total and every observation has a covariance matrix that is positive definite.
-/

namespace Stheno

open Matrix

/-- `pairwise` and `elwise` return at numeric inputs with rows in given domains. -/
def TotKD (lm : MId → PId → Option MExpr) (lk : MId → PId → PId → Option KExpr) (D E : Pt → Prop) (k : KExpr) : Prop :=
  TotK lm lk k (NumIn D) (NumIn E) ∧ TotD lm lk k (NumIn D) (NumIn E)

section
variable {lm : MId → PId → Option MExpr} {lk : MId → PId → PId → Option KExpr} {D E D' E' : Pt → Prop} {a b : KExpr}

theorem TotKD.mono (h : TotKD lm lk D E a) (hD : ∀ x, D' x → D x) (hE : ∀ x, E' x → E x) : TotKD lm lk D' E' a :=
  ⟨h.1.mono (fun _ h => h.mono hD) fun _ h => h.mono hE, h.2.mono (fun _ h => h.mono hD) fun _ h => h.mono hE⟩
theorem TotKD.zero : TotKD lm lk D E .zero := ⟨TotK.zero numIn_atom numIn_atom, TotD.zero numIn_atom numIn_atom⟩
theorem TotKD.plain (h : a.Plain) : TotKD lm lk D E a := ⟨TotK.plain h, TotD.plain h⟩
theorem TotKD.kadd (ha : TotKD lm lk D E a) (hb : TotKD lm lk D E b) : TotKD lm lk D E (kadd a b) :=
  ⟨ha.1.kadd numIn_atom numIn_atom hb.1, ha.2.kadd numIn_atom numIn_atom hb.2⟩
theorem TotKD.kscale (ha : TotKD lm lk D E a) (c : ℝ) : TotKD lm lk D E (kscale c a) :=
  ⟨ha.1.kscale numIn_atom numIn_atom c, ha.2.kscale numIn_atom numIn_atom c⟩
theorem TotKD.krev (ha : TotKD lm lk D E a) : TotKD lm lk E D (krev a) :=
  ⟨ha.1.krev numIn_atom numIn_atom, ha.2.krev numIn_atom numIn_atom⟩
theorem TotKD.kmul (ha : TotKD lm lk D E a) (hb : TotKD lm lk D E b) : TotKD lm lk D E (Stheno.kmul a b) :=
  ⟨ha.1.kmul numIn_atom numIn_atom hb.1, ha.2.kmul numIn_atom numIn_atom hb.2⟩
theorem TotKD.ftimes {f g : Fn} (hf : TotF lm lk f (NumIn D)) (hg : TotF lm lk g (NumIn E)) (ha : TotKD lm lk D E a) :
    TotKD lm lk D E (Stheno.kmul (.tprod f g) a) :=
  TotKD.kmul ⟨TotK.tprod numIn_atom numIn_atom hf hg, TotD.tprod numIn_atom numIn_atom hf hg⟩ ha
theorem TotKD.kpre {t u : InTr} (ht : t.Maps D D') (hu : u.Maps E E') (ha : TotKD lm lk D' E' a) : TotKD lm lk D E (kpre t u a) :=
  ⟨ha.1.kpre ht hu, ha.2.kpre ht hu⟩
theorem TotKD.kdiff {d e : Option ℕ} (hd : Lined d D D') (he : Lined e E E') (ha : TotKD lm lk D' E' a) :
    TotKD lm lk D E (Stheno.kdiff d e a) := ⟨ha.1.kdiff hd he, TotD.kdiff hd he ha.1⟩

end

/-- The process can be called at all. -/
def Live (G : Dom) (p : PId) : Prop := ∃ x, G p x

/-- Functions that return at the rows in `D`. -/
def Fn.Total (G : Dom) (D : Pt → Prop) : Fn → Prop
  | .meanOf _ q => ∀ x, D x → G q x
  | f => f.Plain

/-- Definitions of single-output processes whose means and kernels return at the rows in `D`, if those of earlier processes
return in their domains. -/
def ProcDef.Total (G : Dom) (D : Pt → Prop) : ProcDef → Prop
  | .indep mean k => mean.Plain ∧ k.Plain
  | .addFn p f => (∀ x, D x → G p x) ∧ f.Plain
  | .fmul p f => (∀ x, D x → G p x) ∧ f.Total G D
  | .pre p t => t.Maps D (G p)
  | .sum p q | .rem p q => (∀ x, D x → G p x) ∧ ∀ x, D x → G q x
  | .scale p _ | .copy p => ∀ x, D x → G p x
  | .diff p d => Lined (some d) D (G p)
  | .custom _ _ _ | .cross _ => False

/-- The covariance matrix of an observation in measure `m` is positive definite. -/
def AWorld.PD (L : AWorld) (m : MId) (p : PId) (z : Input) (noise : Mat) : Prop :=
  ∀ k, L.kernel m p p = some k → PDAt L.mean L.kernel k z noise

/-- Observations that can be conditioned on. The process `p` is observed at `z` in measure `m`, which is `b`, and
`ps` were the processes of `m` at that time. Either `p` is a single-output process and `z` is numeric, or `p` is a
cross process, newer than all of `ps` for which a posterior is needed, and `z` consists of FDDs of its components. -/
def AWorld.Seen (G : Dom) (b : AMeas) (ps : List PId) (p : PId) (z : Input) : Prop :=
  (NumIn (G p) z ∧ p ∈ ps ∧ p ∈ b.ps) ∨
  ∃ new old qs, b.defs = new ++ (p, .cross qs) :: old ∧ TupOf G qs z ∧ (∀ q ∈ qs, q ∈ ps) ∧
    ∀ i ∈ ps, Live G i → i ∈ knownOf b.basePs old

/-- Observations of the right sizes that can be conditioned on. -/
def AWorld.Observed (G : Dom) (b : AMeas) (ps : List PId) : Obs → Prop
  | .exact p z noise y => noise.r = numElements z ∧ noise.c = numElements z ∧ y.length = numElements z ∧ AWorld.Seen G b ps p z
  | .pseudo pu p o => o.noiseX.isDiagonal = true ∧ o.Fit ∧ AWorld.Seen G b ps pu o.z ∧ AWorld.Seen G b ps p o.x

/-- The values of `F` are differentiable in mean square with respect to feature `d`, at the rows in `D`. -/
def SmoothOn (F : RF RV) (d : ℕ) (D : Pt → Prop) : Prop :=
  ∀ x : Pt, D x → DifferentiableAt ℝ (fun t => pointOf F (bump d t x)) 0

/-- Processes that are differentiated are differentiable in mean square where the derivative is called. -/
def AWorld.Smooth (L : AWorld) (G : Dom) : Prop :=
  ∀ (m : MId) a es r p d es', L.ms[m]? = some a → a.defs = es ++ (r, .diff p d) :: es' → SmoothOn ((canon L).F m p) d (G r)

/-- All calls at numeric inputs return in this state, if covariance matrices of observations are positive definite. -/
structure AWorld.Total (L : AWorld) (G : Dom) : Prop where
  wf : WfMs L
  smooth : L.Smooth G
  defs : ∀ (m : MId) a, L.ms[m]? = some a → ∀ e ∈ a.defs, Live G e.1 → e.2.Total G (G e.1)
  means : ∀ (m : MId) a es r p n q es', L.ms[m]? = some a → a.defs = es ++ (r, .fmul p (.meanOf n q)) :: es' →
    n = m ∧ q ∈ knownOf a.basePs es'
  obs : ∀ (m : MId) a u, L.ms[m]? = some a → a.base = some u → ∃ b, L.ms[u.prior]? = some b ∧
    AWorld.Observed G b a.basePs u.obs

/-- The covariance matrices of an observation in measure `m` are positive definite. -/
def AWorld.PDObs (L : AWorld) (m : MId) : Obs → Prop
  | .exact p z noise _ => L.PD m p z noise
  | .pseudo pu p o => ∀ kzz kzx kxx, L.kernel m pu pu = some kzz → L.kernel m pu p = some kzx → L.kernel m p p = some kxx →
      SDAt L.mean L.kernel kzz kzx kxx o

/-- The covariance matrices of all observations are positive definite. -/
def AWorld.PDs (L : AWorld) : Prop := ∀ (m : MId) a u, L.ms[m]? = some a → a.base = some u → L.PDObs u.prior u.obs

section
variable {L : AWorld} {G : Dom}

theorem InTr.Maps.live {t : InTr} {i p : PId} (h : t.Maps (G i) (G p)) (hi : Live G i) : Live G p := by
  obtain ⟨x, hx⟩ := hi
  obtain ⟨x', _, hx'⟩ := h x hx
  exact ⟨x', hx'⟩

theorem Lined.live {d : Option ℕ} {i p : PId} (h : Lined d (G i) (G p)) (hi : Live G i) : Live G p := by
  obtain ⟨x, hx⟩ := hi
  exact ⟨_, (h x hx).2 0⟩

theorem mean_of_defs {m : MId} {base : PId → Option MExpr} {bp : List PId}
    (hb : ∀ i ∈ bp, Live G i → ∃ e, base i = some e ∧ TotM L.mean L.kernel e (NumIn (G i))) :
    (es : List (PId × ProcDef)) → Scoped bp es → (∀ e ∈ es, Live G e.1 → e.2.Total G (G e.1)) →
      (∀ new r p n q old, es = new ++ (r, .fmul p (.meanOf n q)) :: old →
        q ∈ knownOf bp old ∧ L.mean n q = lookMDefs m base bp old q) → ∀ i ∈ knownOf bp es, Live G i →
      ∃ e, lookMDefs m base bp es i = some e ∧ TotM L.mean L.kernel e (NumIn (G i))
  | [], _, _, _, i, hi, ci => by
    simp only [knownOf, List.map_nil, List.reverse_nil, List.append_nil] at hi
    simp only [lookMDefs, hi, if_true]
    exact hb i hi ci
  | (p, d) :: es, hs, hd, hf, i, hi, ci => by
    obtain ⟨hr, hs'⟩ := hs
    have ih := mean_of_defs (m := m) hb es hs' (fun e he => hd e (by simp [he]))
      fun new r p' n q old e => hf ((p, d) :: new) r p' n q old (by rw [e]; rfl)
    simp only [lookMDefs]
    by_cases hip : i = p
    · subst hip
      rw [if_pos rfl]
      have hT : d.Total G (G i) := hd (i, d) (by simp) ci
      cases d with
      | indep mean k => exact ⟨_, rfl, TotM.plain hT.1⟩
      | addFn q f =>
        obtain ⟨e, he, te⟩ := ih q (hr q (by simp [ProcDef.refs])) (ci.imp hT.1)
        simp only [defMean, he]
        exact ⟨_, rfl, (te.mono fun _ h => h.mono hT.1).add (TotM.fn (TotF.plain hT.2))⟩
      | fmul q f =>
        obtain ⟨e, he, te⟩ := ih q (hr q (by simp [ProcDef.refs])) (ci.imp hT.1)
        simp only [defMean, he]
        refine ⟨_, rfl, (TotM.fn ?_).mul (te.mono fun _ h => h.mono hT.1)⟩
        cases f with
        | meanOf n q' =>
          obtain ⟨hk, hm⟩ := hf [] i q n q' es rfl
          obtain ⟨e', he', te'⟩ := ih q' hk (ci.imp hT.2)
          exact TotF.meanOf (hm.trans he') (te'.mono fun _ h => h.mono hT.2)
        | user f => exact TotF.plain (f := .user f) trivial
        | const c => exact TotF.const
      | rem q r =>
        obtain ⟨e, he, te⟩ := ih q (hr q (by simp [ProcDef.refs])) (ci.imp hT.1)
        obtain ⟨e', he', te'⟩ := ih r (hr r (by simp [ProcDef.refs])) (ci.imp hT.2)
        simp only [defMean, he, he']
        exact ⟨_, rfl, ((te.mono fun _ h => h.mono hT.1).scale (-1)).mul (te'.mono fun _ h => h.mono hT.2)⟩
      | sum q r =>
        obtain ⟨e, he, te⟩ := ih q (hr q (by simp [ProcDef.refs])) (ci.imp hT.1)
        obtain ⟨e', he', te'⟩ := ih r (hr r (by simp [ProcDef.refs])) (ci.imp hT.2)
        simp only [defMean, he, he']
        exact ⟨_, rfl, (te.mono fun _ h => h.mono hT.1).add (te'.mono fun _ h => h.mono hT.2)⟩
      | scale q c =>
        obtain ⟨e, he, te⟩ := ih q (hr q (by simp [ProcDef.refs])) (ci.imp hT)
        simp only [defMean, he]
        exact ⟨_, rfl, (te.mono fun _ h => h.mono hT).scale c⟩
      | pre q t =>
        obtain ⟨e, he, te⟩ := ih q (hr q (by simp [ProcDef.refs])) (hT.live ci)
        simp only [defMean, he]
        exact ⟨_, rfl, te.pre hT⟩
      | diff q d =>
        obtain ⟨e, he, te⟩ := ih q (hr q (by simp [ProcDef.refs])) (hT.live ci)
        simp only [defMean, he]
        exact ⟨_, rfl, te.diff hT⟩
      | copy q =>
        obtain ⟨e, he, te⟩ := ih q (hr q (by simp [ProcDef.refs])) (ci.imp hT)
        exact ⟨e, he, te.mono fun _ h => h.mono hT⟩
      | _ => exact hT.elim
    · rw [if_neg hip]
      refine ih i ?_ ci
      rw [knownOf_cons] at hi
      simpa [hip] using hi

theorem kernel_of_defs {m : MId} {base : PId → PId → Option KExpr} {bp : List PId}
    (hb : ∀ i ∈ bp, Live G i → ∀ j ∈ bp, Live G j → ∃ k, base i j = some k ∧ TotKD L.mean L.kernel (G i) (G j) k) :
    (es : List (PId × ProcDef)) → Scoped bp es → (∀ e ∈ es, Live G e.1 → e.2.Total G (G e.1)) →
      (∀ r p f, (r, .fmul p f) ∈ es → Live G r → TotF L.mean L.kernel f (NumIn (G r))) →
      ∀ i ∈ knownOf bp es, Live G i → ∀ j ∈ knownOf bp es, Live G j →
      ∃ k, lookKDefs m base bp es i j = some k ∧ TotKD L.mean L.kernel (G i) (G j) k
  | [], _, _, _, i, hi, ci, j, hj, cj => by
    simp only [knownOf, List.map_nil, List.reverse_nil, List.append_nil] at hi hj
    simp only [lookKDefs, hi, hj, and_self, if_true]
    exact hb i hi ci j hj cj
  | (p, d) :: es, hs, hd, hf, i, hi, ci, j, hj, cj => by
    obtain ⟨hr, hs'⟩ := hs
    have ih := kernel_of_defs (m := m) hb es hs' (fun e he => hd e (by simp [he]))
      fun r p' f h => hf r p' f (List.mem_cons_of_mem _ h)
    have left : ∀ l ∈ knownOf bp es, Live G l → Live G p → ∃ k,
        defLeft m (lookKDefs m base bp es) l d = some k ∧ TotKD L.mean L.kernel (G p) (G l) k := by
      intro l hl cl cp
      have hT : d.Total G (G p) := hd (p, d) (by simp) cp
      cases d with
      | indep mean k => exact ⟨_, rfl, TotKD.zero⟩
      | addFn q f =>
        obtain ⟨k, hk, tk⟩ := ih q (hr q (by simp [ProcDef.refs])) (cp.imp hT.1) l hl cl
        exact ⟨k, hk, tk.mono hT.1 fun _ h => h⟩
      | fmul q f =>
        obtain ⟨k, hk, tk⟩ := ih q (hr q (by simp [ProcDef.refs])) (cp.imp hT.1) l hl cl
        simp only [defLeft, hk]
        exact ⟨_, rfl, (tk.mono hT.1 fun _ h => h).ftimes (hf p q f (by simp) cp) TotF.const⟩
      | rem q r => exact ⟨_, rfl, TotKD.zero⟩
      | sum q r =>
        obtain ⟨k, hk, tk⟩ := ih q (hr q (by simp [ProcDef.refs])) (cp.imp hT.1) l hl cl
        obtain ⟨k', hk', tk'⟩ := ih r (hr r (by simp [ProcDef.refs])) (cp.imp hT.2) l hl cl
        simp only [defLeft, hk, hk']
        exact ⟨_, rfl, (tk.mono hT.1 fun _ h => h).kadd (tk'.mono hT.2 fun _ h => h)⟩
      | scale q c =>
        obtain ⟨k, hk, tk⟩ := ih q (hr q (by simp [ProcDef.refs])) (cp.imp hT) l hl cl
        simp only [defLeft, hk]
        exact ⟨_, rfl, (tk.mono hT fun _ h => h).kscale c⟩
      | pre q t =>
        obtain ⟨k, hk, tk⟩ := ih q (hr q (by simp [ProcDef.refs])) (hT.live cp) l hl cl
        simp only [defLeft, hk]
        exact ⟨_, rfl, tk.kpre hT t.neutral_maps⟩
      | diff q e =>
        obtain ⟨k, hk, tk⟩ := ih q (hr q (by simp [ProcDef.refs])) (hT.live cp) l hl cl
        simp only [defLeft, hk]
        exact ⟨_, rfl, tk.kdiff hT Lined.none⟩
      | copy q =>
        obtain ⟨k, hk, tk⟩ := ih q (hr q (by simp [ProcDef.refs])) (cp.imp hT) l hl cl
        exact ⟨k, hk, tk.mono hT fun _ h => h⟩
      | _ => exact hT.elim
    simp only [lookKDefs]
    by_cases hip : i = p
    · subst hip
      rw [if_pos rfl]
      by_cases hji : j = i
      · subst hji
        rw [if_pos rfl]
        have hT : d.Total G (G j) := hd (j, d) (by simp) ci
        cases d with
        | indep mean k => exact ⟨_, rfl, TotKD.plain hT.2⟩
        | addFn q f =>
          have hq := hr q (by simp [ProcDef.refs])
          obtain ⟨k, hk, tk⟩ := ih q hq (ci.imp hT.1) q hq (ci.imp hT.1)
          exact ⟨k, hk, tk.mono hT.1 hT.1⟩
        | fmul q f =>
          have hq := hr q (by simp [ProcDef.refs])
          obtain ⟨k, hk, tk⟩ := ih q hq (ci.imp hT.1) q hq (ci.imp hT.1)
          simp only [defKernel, hk]
          have hf := hf j q f (by simp) ci
          exact ⟨_, rfl, (tk.mono hT.1 hT.1).ftimes hf hf⟩
        | rem q r =>
          have hq := hr q (by simp [ProcDef.refs])
          have hr' := hr r (by simp [ProcDef.refs])
          obtain ⟨k1, hk1, tk1⟩ := ih q hq (ci.imp hT.1) q hq (ci.imp hT.1)
          obtain ⟨k2, hk2, tk2⟩ := ih r hr' (ci.imp hT.2) r hr' (ci.imp hT.2)
          obtain ⟨k3, hk3, tk3⟩ := ih q hq (ci.imp hT.1) r hr' (ci.imp hT.2)
          obtain ⟨k4, hk4, tk4⟩ := ih r hr' (ci.imp hT.2) q hq (ci.imp hT.1)
          simp only [defKernel, hk1, hk2, hk3, hk4]
          exact ⟨_, rfl, ((tk1.mono hT.1 hT.1).kmul (tk2.mono hT.2 hT.2)).kadd ((tk3.mono hT.1 hT.2).kmul (tk4.mono hT.2 hT.1))⟩
        | sum q r =>
          have hq := hr q (by simp [ProcDef.refs])
          have hr' := hr r (by simp [ProcDef.refs])
          obtain ⟨k1, hk1, tk1⟩ := ih q hq (ci.imp hT.1) q hq (ci.imp hT.1)
          obtain ⟨k2, hk2, tk2⟩ := ih r hr' (ci.imp hT.2) r hr' (ci.imp hT.2)
          obtain ⟨k3, hk3, tk3⟩ := ih q hq (ci.imp hT.1) r hr' (ci.imp hT.2)
          obtain ⟨k4, hk4, tk4⟩ := ih r hr' (ci.imp hT.2) q hq (ci.imp hT.1)
          simp only [defKernel, hk1, hk2, hk3, hk4]
          exact ⟨_, rfl, (((tk1.mono hT.1 hT.1).kadd (tk2.mono hT.2 hT.2)).kadd (tk3.mono hT.1 hT.2)).kadd (tk4.mono hT.2 hT.1)⟩
        | scale q c =>
          have hq := hr q (by simp [ProcDef.refs])
          obtain ⟨k, hk, tk⟩ := ih q hq (ci.imp hT) q hq (ci.imp hT)
          simp only [defKernel, hk]
          exact ⟨_, rfl, (tk.mono hT hT).kscale _⟩
        | pre q t =>
          have hq := hr q (by simp [ProcDef.refs])
          obtain ⟨k, hk, tk⟩ := ih q hq (hT.live ci) q hq (hT.live ci)
          simp only [defKernel, hk]
          exact ⟨_, rfl, tk.kpre hT hT⟩
        | diff q e =>
          have hq := hr q (by simp [ProcDef.refs])
          obtain ⟨k, hk, tk⟩ := ih q hq (hT.live ci) q hq (hT.live ci)
          simp only [defKernel, hk]
          exact ⟨_, rfl, tk.kdiff hT hT⟩
        | copy q =>
          have hq := hr q (by simp [ProcDef.refs])
          obtain ⟨k, hk, tk⟩ := ih q hq (ci.imp hT) q hq (ci.imp hT)
          exact ⟨k, hk, tk.mono hT hT⟩
        | _ => exact hT.elim
      · have hj' : j ∈ knownOf bp es := by rw [knownOf_cons] at hj; simpa [hji] using hj
        rw [if_neg hji, if_pos hj']
        exact left j hj' cj ci
    · have hi' : i ∈ knownOf bp es := by rw [knownOf_cons] at hi; simpa [hip] using hi
      rw [if_neg hip]
      by_cases hjp : j = p
      · subst hjp
        rw [if_pos rfl, if_pos hi']
        obtain ⟨k, hk, tk⟩ := left i hi' ci cj
        have hT : d.Total G (G j) := hd (j, d) (by simp) cj
        cases d with
        | indep mean k => exact ⟨_, rfl, TotKD.zero⟩
        | rem q r => exact ⟨_, rfl, TotKD.zero⟩
        | copy q =>
          obtain ⟨k', hk', tk'⟩ := ih i hi' ci q (hr q (by simp [ProcDef.refs])) (cj.imp hT)
          exact ⟨k', hk', tk'.mono (fun _ h => h) hT⟩
        | addFn q f => simp only [defRight, hk]; exact ⟨_, rfl, tk.krev⟩
        | fmul q f => simp only [defRight, hk]; exact ⟨_, rfl, tk.krev⟩
        | sum q r => simp only [defRight, hk]; exact ⟨_, rfl, tk.krev⟩
        | scale q c => simp only [defRight, hk]; exact ⟨_, rfl, tk.krev⟩
        | pre q t => simp only [defRight, hk]; exact ⟨_, rfl, tk.krev⟩
        | diff q e => simp only [defRight, hk]; exact ⟨_, rfl, tk.krev⟩
        | _ => exact hT.elim
      · rw [if_neg hjp]
        exact ih i hi' ci j (by rw [knownOf_cons] at hj; simpa [hjp] using hj) cj

/-- Means and kernels of a measure return. -/
def AWorld.Returns (L : AWorld) (G : Dom) (m : MId) (a : AMeas) : Prop :=
  (∀ i ∈ a.ps, Live G i → ∃ e, L.mean m i = some e ∧ TotM L.mean L.kernel e (NumIn (G i))) ∧
    ∀ i ∈ a.ps, Live G i → ∀ j ∈ a.ps, Live G j → ∃ k, L.kernel m i j = some k ∧ TotKD L.mean L.kernel (G i) (G j) k

/-- What the measure knows about a cross process. -/
structure AWorld.CrossAt (L : AWorld) (n : MId) (b : AMeas) (p : PId) (qs : List PId) (old : List (PId × ProcDef)) : Prop where
  mean : L.mean n p = some (.mom n qs)
  kernel : L.kernel n p p = some (.mok n qs)
  left : ∀ i ∈ knownOf b.basePs old, L.kernel n p i = some (.adk (.pre .none (.toFdd i) (.mok n qs)))
  right : ∀ i ∈ knownOf b.basePs old, L.kernel n i p = some (.rev (.adk (.pre .none (.toFdd i) (.mok n qs))))
  comps : ∀ q ∈ qs, q ∈ knownOf b.basePs old
  sub : ∀ q ∈ knownOf b.basePs old, q ∈ b.ps

theorem AWorld.crossAt (hL : WfMs L) {n : MId} {b : AMeas} (hb : L.ms[n]? = some b) {new old : List (PId × ProcDef)} {p : PId}
    {qs : List PId} (hd : b.defs = new ++ (p, .cross qs) :: old) : L.CrossAt n b p qs old := by
  have wf := hL n b hb
  have hnd : ((p, ProcDef.cross qs) :: old).map (·.1) |>.Nodup := by
    have h := wf.nodup
    rw [AMeas.ps, knownOf, hd, List.map_append, List.reverse_append] at h
    have h := (h.sublist ((List.sublist_append_left _ _).trans (List.sublist_append_right _ _)))
    exact List.nodup_reverse.1 h
  have hnew : p ∉ new.map (·.1) ∧ ∀ i ∈ knownOf b.basePs old, i ∉ new.map (·.1) ∧ i ≠ p := by
    have h := wf.nodup
    rw [AMeas.ps, knownOf, hd, List.map_append, List.reverse_append, List.map_cons, List.reverse_cons,
      List.nodup_append] at h
    obtain ⟨_, h2, h3⟩ := h
    rw [List.nodup_append] at h2
    refine ⟨fun hp => (h2.2.2 p (by simp) p (by simpa using hp) rfl).elim, fun i hi => ?_⟩
    rw [mem_knownOf] at hi
    rcases hi with hi | hi
    · exact ⟨fun hn => h3 i hi i (by simp only [List.mem_append, List.mem_reverse]; exact .inr hn) rfl,
        fun e => h3 i hi i (by simp [e]) rfl⟩
    · refine ⟨fun hn => h2.2.2 i (by simp only [List.mem_append, List.mem_reverse]; exact .inl hi) i
        (by simpa using hn) rfl, fun e => ?_⟩
      subst e
      exact (List.nodup_cons.1 hnd).1 hi
  have hsc : Scoped b.basePs ((p, .cross qs) :: old) := by
    have h := wf.inScope
    rw [hd] at h
    clear hd hnew
    induction new with
    | nil => exact h
    | cons e new ih => exact ih h.2
  have lt := hL.stable.base_lt
  refine ⟨?_, ?_, fun i hi => ?_, fun i hi => ?_, hsc.1, fun q h => ?_⟩
  · rw [mean_eq lt hb, hd, lookMDefs_append hnew.1]
    simp [lookMDefs, defMean]
  · rw [kernel_eq lt hb, hd, lookKDefs_append hnew.1 hnew.1]
    simp [lookKDefs, defKernel]
  · rw [kernel_eq lt hb, hd, lookKDefs_append hnew.1 (hnew.2 i hi).1]
    simp [lookKDefs, (hnew.2 i hi).2, hi, defLeft]
  · rw [kernel_eq lt hb, hd, lookKDefs_append (hnew.2 i hi).1 hnew.1]
    simp [lookKDefs, (hnew.2 i hi).2, hi, defRight, defLeft, krev]
  · rw [AMeas.ps, mem_knownOf, hd]
    rw [mem_knownOf] at h
    exact h.imp id fun h => by simp only [List.map_append, List.map_cons, List.mem_append, List.mem_cons]
                               exact .inr (.inr h)

/-- What is needed of an observed process. -/
theorem AWorld.Seen.get (hL : L.Total G) {n : MId} {b : AMeas} (hb : L.ms[n]? = some b) (hr : L.Returns G n b)
    {ps : List PId} {p : PId} {z : Input} (h : AWorld.Seen G b ps p z) :
    (∃ e, L.mean n p = some e ∧ TotM L.mean L.kernel e (· = z)) ∧
    (∃ k, L.kernel n p p = some k ∧ TotK L.mean L.kernel k (· = z) (· = z) ∧ TotD L.mean L.kernel k (· = z) (· = z)) ∧
    ∀ i ∈ ps, i ∈ b.ps → Live G i → (∃ k, L.kernel n p i = some k ∧ TotK L.mean L.kernel k (· = z) (NumIn (G i))) ∧
      ∃ k, L.kernel n i p = some k ∧ TotK L.mean L.kernel k (NumIn (G i)) (· = z) := by
  rcases h with ⟨hz, -, hp⟩ | ⟨new, old, qs, hd, hz, cq, hold⟩
  · have hz' : ∀ x, x = z → NumIn (G p) x := by rintro _ rfl; exact hz
    have cp : Live G p := by obtain ⟨_, _, h⟩ := hz; exact h.1
    obtain ⟨e, he, te⟩ := hr.1 p hp cp
    obtain ⟨k, hk, tk⟩ := hr.2 p hp cp p hp cp
    refine ⟨⟨e, he, te.mono hz'⟩, ⟨k, hk, tk.1.mono hz' hz', tk.2.mono hz' hz'⟩, fun i _ hi ci => ⟨?_, ?_⟩⟩
    · obtain ⟨k, hk, tk⟩ := hr.2 p hp cp i hi ci
      exact ⟨k, hk, tk.1.mono hz' fun _ h => h⟩
    · obtain ⟨k, hk, tk⟩ := hr.2 i hi ci p hp cp
      exact ⟨k, hk, tk.1.mono (fun _ h => h) hz'⟩
  · have hc := AWorld.crossAt hL.wf hb hd
    have hq : ∀ q ∈ qs, q ∈ b.ps := fun q h => hc.sub q (hc.comps q h)
    refine ⟨⟨_, hc.mean, TotM.mom_tup (ps := qs) (TotM.mom (fun q h => hr.1 q (hq q h)) _) hz⟩,
      ⟨_, hc.kernel, TotK.tup_tup (ps := qs) (TotK.mok (fun q h cq q' h' cq' => ?_) _) hz hz,
        TotD.mok_tup (ps := qs) (fun q h cq => ?_) _ hz⟩,
      fun i hi _ ci => ⟨⟨_, hc.left i (hold i hi ci), TotK.tup_num (ps := qs) (TotK.crossLeft numIn_atom (fun q h cq => ?_) _) hz⟩,
        ⟨_, hc.right i (hold i hi ci), TotK.num_tup (ps := qs) (TotK.crossRight numIn_atom (fun q h cq => ?_) _) hz⟩⟩⟩
    · obtain ⟨k, hk, tk⟩ := hr.2 q (hq q h) cq q' (hq q' h') cq'
      exact ⟨k, hk, tk.1⟩
    · obtain ⟨k, hk, tk⟩ := hr.2 q (hq q h) cq q (hq q h) cq
      exact ⟨k, hk, tk.2⟩
    · obtain ⟨k, hk, tk⟩ := hr.2 q (hq q h) cq i (hc.sub i (hold i hi ci)) ci
      exact ⟨k, hk, tk.1⟩
    · obtain ⟨k, hk, tk⟩ := hr.2 q (hq q h) cq i (hc.sub i (hold i hi ci)) ci
      exact ⟨k, hk, tk.1⟩

/-- Two elements of a list, one after the other. -/
theorem split_two {α : Type} {l n1 o1 n2 o2 : List α} {e1 e2 : α} (h1 : l = n1 ++ e1 :: o1) (h2 : l = n2 ++ e2 :: o2) :
    (e1 = e2 ∧ o1 = o2) ∨ e1 ∈ o2 ∨ e2 ∈ o1 := by
  rw [h1] at h2
  rw [List.append_eq_append_iff] at h2
  rcases h2 with ⟨t, _, ht⟩ | ⟨t, _, ht⟩
  · cases t with
    | nil => simp only [List.nil_append, List.cons.injEq] at ht; exact .inl ht
    | cons a t =>
      simp only [List.cons_append, List.cons.injEq] at ht
      exact .inr (.inr (by rw [ht.2]; simp))
  · cases t with
    | nil => simp only [List.nil_append, List.cons.injEq] at ht; exact .inl ⟨ht.1.symm, ht.2.symm⟩
    | cons a t =>
      simp only [List.cons_append, List.cons.injEq] at ht
      exact .inr (.inl (by rw [ht.2]; simp))

/-- The covariances of two observed processes. -/
theorem AWorld.Seen.pair (hL : L.Total G) {n : MId} {b : AMeas} (hb : L.ms[n]? = some b) (hr : L.Returns G n b)
    {ps : List PId} (hsub : ∀ i ∈ ps, i ∈ b.ps) {p q : PId} {z x : Input} (h : AWorld.Seen G b ps p z) (h' : AWorld.Seen G b ps q x) :
    ∃ k, L.kernel n p q = some k ∧ TotK L.mean L.kernel k (· = z) (· = x) := by
  have h1 := h
  have h2 := h'
  rcases h with ⟨hz, hp, hp'⟩ | ⟨new, old, qs, hd, hz, cq, hold⟩
  · have cp : Live G p := by obtain ⟨_, _, h⟩ := hz; exact h.1
    obtain ⟨k, hk, tk⟩ := ((h2.get hL hb hr).2.2 p hp hp' cp).2
    exact ⟨k, hk, tk.mono (by rintro _ rfl; exact hz) fun _ h => h⟩
  · rcases h' with ⟨hx, hq, hq'⟩ | ⟨new', old', qs', hd', hx, cq', hold'⟩
    · have cq' : Live G q := by obtain ⟨_, _, h⟩ := hx; exact h.1
      obtain ⟨k, hk, tk⟩ := ((h1.get hL hb hr).2.2 q hq hq' cq').1
      exact ⟨k, hk, tk.mono (fun _ h => h) (by rintro _ rfl; exact hx)⟩
    · have hc := AWorld.crossAt hL.wf hb hd
      have hc' := AWorld.crossAt hL.wf hb hd'
      rcases split_two hd hd' with ⟨e1, e2⟩ | hm | hm
      · cases e1
        refine ⟨_, hc.kernel, TotK.tup_tup (ps := qs) (qs := qs) (TotK.mok (fun s h ls s' h' ls' => ?_) _) hz hx⟩
        obtain ⟨k, hk, tk⟩ := hr.2 s (hsub s (cq s h)) ls s' (hsub s' (cq s' h')) ls'
        exact ⟨k, hk, tk.1⟩
      · -- `p` is older
        have hpo : p ∈ knownOf b.basePs old' := by
          rw [mem_knownOf]; exact .inr (List.mem_map.2 ⟨_, hm, rfl⟩)
        refine ⟨_, hc'.right p hpo, TotK.tup_tup (ps := qs) (qs := qs')
          (TotK.crossRight (X := FddOf G qs) (fun _ => FddOf.atom) (fun s h ls => ?_) _) hz hx⟩
        refine ⟨_, hc.right s (hold s (cq' s h) ls), TotK.crossRight numIn_atom (fun s' h' ls' => ?_) _⟩
        obtain ⟨k, hk, tk⟩ := hr.2 s' (hsub s' (cq s' h')) ls' s (hsub s (cq' s h)) ls
        exact ⟨k, hk, tk.1⟩
      · -- `q` is older
        have hqo : q ∈ knownOf b.basePs old := by
          rw [mem_knownOf]; exact .inr (List.mem_map.2 ⟨_, hm, rfl⟩)
        refine ⟨_, hc.left q hqo, TotK.tup_tup (ps := qs) (qs := qs')
          (TotK.crossLeft (X := FddOf G qs') (fun _ => FddOf.atom) (fun s h ls => ?_) _) hz hx⟩
        refine ⟨_, hc'.right s (hold' s (cq s h) ls), TotK.crossRight numIn_atom (fun s' h' ls' => ?_) _⟩
        obtain ⟨k, hk, tk⟩ := hr.2 s' (hsub s' (cq' s' h')) ls' s (hsub s (cq s h)) ls
        exact ⟨k, hk, tk.1⟩

theorem AWorld.Total.returns (hL : L.Total G) (hpd : L.PDs) : ∀ (m : MId) (a : AMeas), L.ms[m]? = some a → L.Returns G m a := by
  intro m
  induction m using Nat.strong_induction_on with
  | _ m ih =>
    intro a ha
    have h0 := hL.wf m a ha
    have hbase : (∀ i ∈ a.basePs, Live G i → ∃ e, L.baseM a i = some e ∧ TotM L.mean L.kernel e (NumIn (G i))) ∧
        ∀ i ∈ a.basePs, Live G i → ∀ j ∈ a.basePs, Live G j → ∃ k, L.baseK a i j = some k ∧ TotKD L.mean L.kernel (G i) (G j) k := by
      cases hb : a.base with
      | none => simp [h0.base_none hb]
      | some u =>
        obtain ⟨b, hb', hsub⟩ := h0.base_sub u hb
        obtain ⟨b', hb'', hs⟩ := hL.obs m a u ha hb
        have hpd := hpd m a u ha hb
        rw [hb'] at hb''; cases hb''
        have hr := ih u.prior (h0.base_lt u hb) b hb'
        simp only [AWorld.baseM, AWorld.baseK, hb]
        cases ho : u.obs with
        | exact p z noise y =>
          rw [ho] at hs hpd
          obtain ⟨nr, nc, ly, hs⟩ := hs
          obtain ⟨⟨mz, hmz, tmz⟩, ⟨kzz, hkzz, tkzz, -⟩, hzi⟩ := hs.get hL hb' hr
          constructor
          · intro i hi ci
            obtain ⟨e, he, te⟩ := hr.1 i (hsub i hi) ci
            by_cases h0 : numElements z = 0
            · exact ⟨e, by simp only [obsMean, h0, if_true, he], te⟩
            obtain ⟨kzi, hkzi, tkzi⟩ := (hzi i hi (hsub i hi) ci).1
            refine ⟨_, by simp only [obsMean, h0, if_false, he, hmz, hkzi, hkzz]; rfl, ?_⟩
            exact TotM.post tkzz ⟨nr, nc⟩ (hpd kzz hkzz) ly te tmz tkzi
          · intro i hi ci j hj cj
            obtain ⟨k, hk, tk⟩ := hr.2 i (hsub i hi) ci j (hsub j hj) cj
            by_cases h0 : numElements z = 0
            · exact ⟨k, by simp only [obsKernel, h0, if_true, hk], tk⟩
            obtain ⟨kzi, hkzi, tkzi⟩ := (hzi i hi (hsub i hi) ci).1
            obtain ⟨kzj, hkzj, tkzj⟩ := (hzi j hj (hsub j hj) cj).1
            refine ⟨_, by simp only [obsKernel, h0, if_false, hk, hkzi, hkzj, hkzz]; rfl, ?_, ?_⟩
            · exact TotK.post tkzz ⟨nr, nc⟩ (hpd kzz hkzz) numIn_atom numIn_atom tk.1 tkzi tkzj
            · exact TotD.post tkzz ⟨nr, nc⟩ (hpd kzz hkzz) numIn_atom numIn_atom tk.2 tkzi tkzj
        | pseudo pu p o =>
          rw [ho] at hs hpd
          obtain ⟨dg, fit, hsz, hsx⟩ := hs
          obtain ⟨⟨mz, hmz, tmz⟩, ⟨kzz, hkzz, tkzz, -⟩, hzi⟩ := hsz.get hL hb' hr
          obtain ⟨⟨mx, hmx, tmx⟩, ⟨kxx, hkxx, -, txx⟩, -⟩ := hsx.get hL hb' hr
          obtain ⟨kzx, hkzx, tkzx⟩ := hsz.pair hL hb' hr hsub hsx
          have hp := hpd kzz kzx kxx hkzz hkzx hkxx
          constructor
          · intro i hi ci
            obtain ⟨e, he, te⟩ := hr.1 i (hsub i hi) ci
            obtain ⟨kzi, hkzi, tkzi⟩ := (hzi i hi (hsub i hi) ci).1
            refine ⟨_, by simp only [obsMean, dg, if_true, he, hmz, hmx, hkzi, hkzz, hkzx, hkxx]; rfl, ?_⟩
            exact TotM.pseudo tkzz tkzx txx fit hp te tmz tmx tkzi
          · intro i hi ci j hj cj
            obtain ⟨k, hk, tk⟩ := hr.2 i (hsub i hi) ci j (hsub j hj) cj
            obtain ⟨kzi, hkzi, tkzi⟩ := (hzi i hi (hsub i hi) ci).1
            obtain ⟨kzj, hkzj, tkzj⟩ := (hzi j hj (hsub j hj) cj).1
            refine ⟨_, by simp only [obsKernel, dg, if_true, hk, hkzi, hkzj, hkzz, hkzx, hkxx]; rfl, ?_, ?_⟩
            · exact TotK.pseudo tkzz tkzx txx fit hp numIn_atom numIn_atom tk.1 tkzi tkzj
            · exact TotD.pseudo tkzz tkzx txx fit hp numIn_atom numIn_atom tk.2 tkzi tkzj
    have hmean : ∀ i ∈ a.ps, Live G i → ∃ e, L.mean m i = some e ∧ TotM L.mean L.kernel e (NumIn (G i)) := by
      intro i hi ci
      rw [mean_eq hL.wf.stable.base_lt ha]
      refine mean_of_defs hbase.1 _ h0.inScope (hL.defs m a ha) (fun new r p n q old e => ?_) i hi ci
      obtain ⟨rfl, hq⟩ := hL.means m a new r p n q old ha e
      refine ⟨hq, ?_⟩
      rw [mean_eq hL.wf.stable.base_lt ha]
      have e' : a.defs = (new ++ [(r, .fmul p (.meanOf n q))]) ++ old := by rw [e]; simp
      rw [e']
      exact lookMDefs_append (not_mem_of_known h0.nodup e' hq)
    refine ⟨hmean, fun i hi ci j hj cj => ?_⟩
    rw [kernel_eq hL.wf.stable.base_lt ha]
    refine kernel_of_defs hbase.2 _ h0.inScope (hL.defs m a ha) (fun r p f h cr => ?_) i hi ci j hj cj
    have hT := hL.defs m a ha _ h cr
    cases f with
    | user f => exact TotF.plain (f := .user f) trivial
    | const c => exact TotF.const
    | meanOf n q =>
      obtain ⟨es, es', e⟩ := List.append_of_mem h
      obtain ⟨rfl, hq⟩ := hL.means m a es r p n q es' ha e
      have hqa : q ∈ a.ps := by
        rw [AMeas.ps, mem_knownOf, e]
        rw [mem_knownOf] at hq
        exact hq.imp_right fun h => by
          simp only [List.map_append, List.map_cons, List.mem_append, List.mem_cons]
          exact .inr (.inr h)
      obtain ⟨e, he, te⟩ := hmean q hqa (cr.imp hT.2)
      exact TotF.meanOf he (te.mono fun _ h => h.mono hT.2)

end

/-! ## Programs -/

/-- Observations that a program can condition on. The process `p` is observed at `z` in measure `m` after `before`.
Either `p` is a single-output process and `z` is numeric, or `p` is a cross process of single-output processes and `z`
consists of FDDs of its components. In the latter case no processes for which a posterior is needed have been created
since. -/
def Observable (G : Dom) (before : List Op) (m : MId) (p : PId) (z : Input) : Prop :=
  (NumIn (G p) z ∧ Attached (runOps before {}) m p) ∨
  ∃ b1 qs ord b2, before = b1 ++ .cross qs ord :: b2 ∧ p = (runOps b1 {}).gps.length ∧
    Attached (runOps (b1 ++ [.cross qs ord]) {}) m p ∧ TupOf G qs z ∧
    ∀ i ∈ members (runOps before {}) m, Live G i → i ∈ members (runOps b1 {}) m

/-- Observations of the right sizes that a program can condition on. The noise of pseudo-observations must be diagonal. -/
def ObsFits (G : Dom) (before : List Op) (m : MId) : Obs → Prop
  | .exact p z noise y => noise.r = numElements z ∧ noise.c = numElements z ∧ y.length = numElements z ∧ Observable G before m p z
  | .pseudo pu p o => o.noiseX.isDiagonal = true ∧ o.Fit ∧ Observable G before m pu o.z ∧ Observable G before m p o.x

/-- Programs in which all calls at numeric inputs return, at rows in the domains `G`, if covariance matrices of
observations are positive definite. -/
structure Tame (G : Dom) (ops : List Op) : Prop where
  /-- operations are elementary -/
  elem : ∀ o ∈ ops, o.Elem
  /-- processes have definitions that return -/
  defs : ∀ before o after, ops = before ++ o :: after → ∀ m, ∀ e ∈ o.written (runOps before {}).gps.length m,
    Live G e.1 → e.2.Total G (G e.1)
  /-- measures are only conditioned on observations of the right sizes -/
  obs : ∀ before m obs after, ops = before ++ .condition m obs :: after → HasMeasure (runOps before {}) m → ObsFits G before m obs
  /-- the covariance of the noise of observations is positive semi-definite -/
  noise : ∀ m obs, .condition m obs ∈ ops → obs.NoisePSD
  /-- processes that are differentiated are differentiable in mean square, where the derivative is called -/
  smooth : (specOps ops {}).Smooth G

/-- The matrices that conditioning measure `m` on an observation needs are positive definite, where calls return what they return
in `w`. -/
def PDIn (w : World) (m : MId) : Obs → Prop
  | .exact p z noise _ => ∀ A K, KernelCall w m p p z z A → A.add noise = some K → (K.sq K.r).PosDef
  | .pseudo pu p o => ∀ A K Z u, KernelCall w m pu pu o.z o.z A → A.add o.noiseZ = some K → KernelCall w m pu p o.z o.x Z →
      ElwiseCall w m p p o.x o.x u → u.length = Z.c → (K.sq K.r).PosDef ∧
      ∀ j : Fin Z.c, 0 < knDiag o.method (K.sq K.r) (fun i j => Z.e i j : Matrix (Fin K.r) (Fin Z.c) ℝ)
        (fun j => u.getD j 0) (fun j => o.noiseX.mat.e j j) j

/-- Programs in which all calls at numeric inputs return, at rows in the domains `G`. -/
structure Returning (G : Dom) (ops : List Op) : Prop extends Tame G ops where
  /-- covariance matrices of observations are positive definite -/
  pd : ∀ before m obs after, ops = before ++ .condition m obs :: after → HasMeasure (runOps before {}) m → PDIn (runOps ops {}) m obs

section
variable {G : Dom} {ops : List Op}

theorem lookups_reach (ops : List Op) : meanAt (runOps ops {}) = (specOps ops {}).mean ∧
    kernelAt (runOps ops {}) = (specOps ops {}).kernel := by
  have iv := Inv.reach ops
  exact ⟨by funext m i; exact iv.meanAt m i, by funext m i j; exact iv.kernelAt m i j⟩

theorem mem_members {w : World} {m : MId} {p : PId} : p ∈ members w m ↔ Attached w m p := by
  unfold members Attached
  cases w.ms[m]? <;> simp

theorem seen_of {before after : List Op} {m : MId} {p : PId} {z : Input} {b : AMeas}
    (hb : (specOps (before ++ after) {}).ms[m]? = some b)
    (h : Observable G before m p z) : AWorld.Seen G b (members (runOps before {}) m) p z := by
  have grow : ∀ (b1 b2 : List Op), before = b1 ++ b2 → ∀ a, (specOps b1 {}).ms[m]? = some a →
      b.basePs = a.basePs ∧ a.defs <:+ b.defs := by
    intro b1 b2 e a ha
    obtain ⟨a', ha', _, h2, h3⟩ := ops_grow b1 (b2 ++ after) ha
    rw [← List.append_assoc, ← e, hb] at ha'
    cases ha'
    exact ⟨h2, h3⟩
  rcases h with ⟨hz, hp⟩ | ⟨b1, qs, ord, b2, e, hp, hat, hz, hi⟩
  · refine .inl ⟨hz, mem_members.2 hp, ?_⟩
    obtain ⟨a, ha, hpa⟩ := (Inv.reach before).attached.1 hp
    obtain ⟨h2, h3⟩ := grow before [] (by simp) a ha
    rw [AMeas.ps, mem_knownOf] at hpa ⊢
    rw [h2]
    exact hpa.imp id fun h => List.map_subset _ h3.subset h
  · refine .inr ?_
    subst hp
    obtain ⟨a', es, es', ha', hd, hk⟩ := written_attached (before := b1) (o := .cross qs ord) (m := m) (older := [])
      (r := (runOps b1 {}).gps.length) (d := .cross qs) (younger := []) rfl hat
    obtain ⟨h2, t, h3⟩ := grow (b1 ++ [.cross qs ord]) b2 (by rw [e]; simp) a' ha'
    refine ⟨t ++ es, es', qs, ?_, hz, fun q hq => ?_, fun i hm ci => ?_⟩
    · rw [← h3, hd]; simp
    · have hsc := ((Inv.reach (b1 ++ [.cross qs ord])).wf.ms m a' ha').inScope
      rw [hd] at hsc
      have hq' := scoped_refs hsc rfl q (by simpa [ProcDef.refs] using hq)
      have hqa : q ∈ a'.ps := by
        rw [AMeas.ps, mem_knownOf, hd]
        rw [mem_knownOf] at hq'
        exact hq'.imp id fun h => by simp only [List.map_append, List.map_cons, List.mem_append, List.mem_cons]
                                     exact .inr (.inr h)
      obtain ⟨a2, ha2, _, h2', t', h3'⟩ := ops_grow (b1 ++ [.cross qs ord]) b2 ha'
      refine mem_members.2 ((Inv.reach before).attached.2 ⟨a2, by rw [e]; simpa using ha2, ?_⟩)
      rw [AMeas.ps, mem_knownOf] at hqa ⊢
      rw [h2', ← h3']
      exact hqa.imp id fun h => by simp only [List.map_append, List.mem_append]; exact .inr h
    · rw [h2, hk]
      simpa using hi i hm ci

theorem Tame.state (h : Tame G ops) : (specOps ops {}).Total G where
  wf := (Inv.reach ops).wf.ms
  smooth := h.smooth
  defs := defs_from (fun e => Live G e.1 → e.2.Total G (G e.1)) ops h.defs
  means := means_from ops h.elem
  obs m a u ha hu := by
    obtain ⟨before, after, e, hm, _, hps⟩ := base_from ops m a u ha hu
    have ho := h.obs before u.prior u.obs after e hm
    obtain ⟨b, hb, _⟩ := ((Inv.reach ops).wf.ms m a ha).base_sub u hu
    refine ⟨b, hb, ?_⟩
    rw [hps]
    have hb' := hb
    rw [e] at hb'
    cases hu' : u.obs with
    | exact p z noise y =>
      rw [hu'] at ho hb'
      obtain ⟨h1, h2, h3, hs⟩ := ho
      exact ⟨h1, h2, h3, seen_of hb' hs⟩
    | pseudo pu p o =>
      rw [hu'] at ho hb'
      obtain ⟨h1, h2, h3, h4⟩ := ho
      exact ⟨h1, h2, seen_of hb' h3, seen_of hb' h4⟩

theorem Returning.pds (h : Returning G ops) : (specOps ops {}).PDs := by
  intro m a u ha hu
  obtain ⟨before, after, e, hm, _, hps⟩ := base_from ops m a u ha hu
  obtain ⟨em, ek⟩ := lookups_reach ops
  have hp := h.pd before u.prior u.obs after e hm
  cases hu' : u.obs with
  | exact p z noise y =>
    rw [hu'] at hp
    intro k hk A K hA hK
    obtain ⟨n, hA⟩ := hA
    refine hp A K ⟨k, n, ?_, ?_⟩ hK
    · rw [ek]; exact hk
    · rw [em, ek]; exact hA
  | pseudo pu p o =>
    rw [hu'] at hp
    intro kzz kzx kxx h1 h2 h3 A K Z u hA hK hZ hu lu
    obtain ⟨n1, hA⟩ := hA
    obtain ⟨n2, hZ⟩ := hZ
    obtain ⟨n3, hu⟩ := hu
    refine hp A K Z u ⟨kzz, n1, ?_, ?_⟩ hK ⟨kzx, n2, ?_, ?_⟩ ⟨kxx, n3, ?_, ?_⟩ lu
    · rw [ek]; exact h1
    · rw [em, ek]; exact hA
    · rw [ek]; exact h2
    · rw [em, ek]; exact hZ
    · rw [ek]; exact h3
    · rw [em, ek]; exact hu

/-- Calls of means return. -/
theorem Returning.mean (h : Returning G ops) {m : MId} {p : PId} (hp : Attached (runOps ops {}) m p) {xs : List Pt}
    (hx : Rows (G p) xs) : ∃ v, MeanCall (runOps ops {}) m p (.num xs) v ∧ v.length = xs.length := by
  obtain ⟨a, ha, hpa⟩ := (Inv.reach ops).attached.1 hp
  obtain ⟨e, he, te⟩ := (h.state.returns h.pds m a ha).1 p hpa hx.1
  obtain ⟨v, ⟨n, hv⟩, lv⟩ := te.run ⟨xs, rfl, hx⟩
  obtain ⟨em, ek⟩ := lookups_reach ops
  exact ⟨v, ⟨e, n, by rw [em]; exact he, by rw [em, ek]; exact hv⟩, lv⟩

/-- Calls of kernels return. -/
theorem Returning.kernel (h : Returning G ops) {m : MId} {p q : PId} (hp : Attached (runOps ops {}) m p)
    (hq : Attached (runOps ops {}) m q) {xs ys : List Pt} (hx : Rows (G p) xs) (hy : Rows (G q) ys) :
    ∃ A, KernelCall (runOps ops {}) m p q (.num xs) (.num ys) A ∧ A.r = xs.length ∧ A.c = ys.length := by
  obtain ⟨a, ha, hpa⟩ := (Inv.reach ops).attached.1 hp
  obtain ⟨a', ha', hqa⟩ := (Inv.reach ops).attached.1 hq
  rw [ha] at ha'; cases ha'
  obtain ⟨k, hk, tk, _⟩ := (h.state.returns h.pds m a ha).2 p hpa hx.1 q hqa hy.1
  obtain ⟨A, ⟨n, hA⟩, sA⟩ := tk.run ⟨xs, rfl, hx⟩ ⟨ys, rfl, hy⟩
  obtain ⟨em, ek⟩ := lookups_reach ops
  exact ⟨A, ⟨k, n, by rw [ek]; exact hk, by rw [em, ek]; exact hA⟩, sA⟩

/-- Elementwise calls of kernels return. -/
theorem Returning.elwise (h : Returning G ops) {m : MId} {p q : PId} (hp : Attached (runOps ops {}) m p)
    (hq : Attached (runOps ops {}) m q) {xs ys : List Pt} (hx : Rows (G p) xs) (hy : Rows (G q) ys) (hxy : xs.length = ys.length) :
    ∃ u, ElwiseCall (runOps ops {}) m p q (.num xs) (.num ys) u ∧ u.length = xs.length := by
  obtain ⟨a, ha, hpa⟩ := (Inv.reach ops).attached.1 hp
  obtain ⟨a', ha', hqa⟩ := (Inv.reach ops).attached.1 hq
  rw [ha] at ha'; cases ha'
  obtain ⟨k, hk, _, tk⟩ := (h.state.returns h.pds m a ha).2 p hpa hx.1 q hqa hy.1
  obtain ⟨A, ⟨n, hA⟩, sA⟩ := tk.run ⟨xs, rfl, hx⟩ ⟨ys, rfl, hy⟩ hxy
  obtain ⟨em, ek⟩ := lookups_reach ops
  exact ⟨A, ⟨k, n, by rw [ek]; exact hk, by rw [em, ek]; exact hA⟩, sA⟩

end

/-! ## Canonical values -/

section
variable {G : Dom} {L : AWorld}

theorem Fn.vals_num {S : SO RV} {g : PId → Input → Option (List RV)} {f : Fn} (xs : List Pt)
    (hf : ∀ m q, f = .meanOf m q → ∃ vs, g q (.num xs) = some vs ∧ vs.length = xs.length) {n : ℕ} (hn : n = xs.length) :
    ∃ us, f.vals S g (.num xs) n = some us ∧ us.length = n := by
  cases f with
  | user f => exact ⟨_, if_pos hn.symm, by simp [hn]⟩
  | const c => exact ⟨_, rfl, by simp⟩
  | meanOf m q =>
    obtain ⟨vs, hv, lv⟩ := hf m q rfl
    refine ⟨vs.map S.E, ?_, by simp [lv, hn]⟩
    show ((g q (.num xs)).map (·.map S.E) >>= _) = _
    rw [hv]
    exact if_pos (by simp [lv, hn])

theorem valD_num {S : SO RV} {m : MId} {T : PId → Option (List RV)} {base : PId → Input → Option (List RV)} {bp : List PId}
    (hb : ∀ i ∈ bp, ∀ xs, Rows (G i) xs → ∃ vs, base i (.num xs) = some vs ∧ vs.length = xs.length) :
    (es : List (PId × ProcDef)) → Scoped bp es → (∀ e ∈ es, Live G e.1 → e.2.Total G (G e.1)) →
      (∀ new r p n q old, es = new ++ (r, .fmul p (.meanOf n q)) :: old → q ∈ knownOf bp old) →
      (∀ new r p d old, es = new ++ (r, .diff p d) :: old → SmoothOn (valD S m T base old p) d (G r)) →
      ∀ i ∈ knownOf bp es, ∀ xs, Rows (G i) xs → ∃ vs, valD S m T base es i (.num xs) = some vs ∧ vs.length = xs.length
  | [], _, _, _, _, i, hi, xs, hx => by
    simp only [knownOf, List.map_nil, List.reverse_nil, List.append_nil] at hi
    exact hb i hi xs hx
  | (p, d) :: es, hs, hd, hf, hsm, i, hi, xs, hx => by
    obtain ⟨hr, hs'⟩ := hs
    rw [knownOf_cons] at hi
    have ih := valD_num (S := S) (m := m) (T := T) hb es hs' (fun e he => hd e (by simp [he]))
      (fun new r p' n q old e => hf ((p, d) :: new) r p' n q old (by rw [e]; rfl))
      fun new r p' d' old e => hsm ((p, d) :: new) r p' d' old (by rw [e]; rfl)
    show ∃ vs, (if i = p then _ else _) = some vs ∧ _
    by_cases hip : i = p
    · subst hip
      rw [if_pos rfl]
      have hT : d.Total G (G i) := hd (i, d) (by simp) hx.1
      cases d with
      | indep mean k => exact ⟨_, rfl, by simp⟩
      | addFn q f =>
        obtain ⟨vs, hv, lv⟩ := ih q (hr q (by simp [ProcDef.refs])) xs (hx.mono hT.1)
        obtain ⟨us, hu, lu⟩ := Fn.vals_num (S := S) (g := valD S m T base es) (f := f) xs (fun n q' e => by
          subst e; exact hT.2.elim) lv
        refine ⟨List.zipWith (fun v u => v + u • rvOne) vs us, ?_, by simp [lv, lu]⟩
        simp only [defVal, hv]
        show (f.vals S _ (.num xs) vs.length >>= _) = _
        rw [hu]
        rfl
      | fmul q f =>
        obtain ⟨vs, hv, lv⟩ := ih q (hr q (by simp [ProcDef.refs])) xs (hx.mono hT.1)
        obtain ⟨us, hu, lu⟩ := Fn.vals_num (S := S) (g := valD S m T base es) (f := f) xs (fun n q' e => by
          subst e; exact ih q' (hf [] i q n q' es rfl) xs (hx.mono hT.2)) lv
        refine ⟨List.zipWith (fun v u => u • v) vs us, ?_, by simp [lv, lu]⟩
        simp only [defVal, hv]
        show (f.vals S _ (.num xs) vs.length >>= _) = _
        rw [hu]
        rfl
      | sum q r =>
        obtain ⟨vs, hv, lv⟩ := ih q (hr q (by simp [ProcDef.refs])) xs (hx.mono hT.1)
        obtain ⟨ws, hw, lw⟩ := ih r (hr r (by simp [ProcDef.refs])) xs (hx.mono hT.2)
        simp only [defVal, hv, hw]
        exact ⟨_, if_pos (lv.trans lw.symm), by simp [lv, lw]⟩
      | rem q r =>
        obtain ⟨vs, hv, lv⟩ := ih q (hr q (by simp [ProcDef.refs])) xs (hx.mono hT.1)
        obtain ⟨ws, hw, lw⟩ := ih r (hr r (by simp [ProcDef.refs])) xs (hx.mono hT.2)
        simp only [defVal, hv, hw]
        exact ⟨_, if_pos ⟨lv, lw⟩, by simp⟩
      | scale q c =>
        obtain ⟨vs, hv, lv⟩ := ih q (hr q (by simp [ProcDef.refs])) xs (hx.mono hT)
        simp only [defVal, hv]
        exact ⟨_, rfl, by simp [lv]⟩
      | pre q t =>
        obtain ⟨xs', ex, hx', nx⟩ := hT.rows hx
        obtain ⟨vs, hv, lv⟩ := ih q (hr q (by simp [ProcDef.refs])) xs' hx'
        simp only [defVal, ex]
        exact ⟨_, hv, lv.trans nx⟩
      | diff q e =>
        have key : ∀ x ∈ xs, RF.der slopeOf (valD S m T base es q) e x =
            some (deriv (fun t => pointOf (valD S m T base es q) (bump e t x)) 0) := by
          intro x hx'
          have along : RF.Along (valD S m T base es q) e x := by
            refine ⟨(hT x (hx.2 x hx')).1 e rfl, fun t => ?_⟩
            obtain ⟨vs, hv, lv⟩ := ih q (hr q (by simp [ProcDef.refs])) [bump e t x] (.one ((hT x (hx.2 x hx')).2 t))
            match vs, lv with
            | [v], _ => exact ⟨v, hv⟩
          exact (if_pos along).trans (if_pos (hsm [] i q e es rfl x (hx.2 x hx')))
        exact ⟨_, mapM_of key, by simp⟩
      | copy q => exact ih q (hr q (by simp [ProcDef.refs])) xs (hx.mono hT)
      | _ => exact hT.elim
    · rw [if_neg hip]
      exact ih i (by simpa [hip] using hi) xs hx

/-- Canonical values at numeric inputs. -/
theorem AWorld.Total.values (hL : L.Total G) (hE : L.Elem) : ∀ (m : MId) (a : AMeas), L.ms[m]? = some a → ∀ i ∈ a.ps,
    ∀ xs, Rows (G i) xs → ∃ vs, (canon L).F m i (.num xs) = some vs ∧ vs.length = xs.length := by
  intro m
  induction m using Nat.strong_induction_on with
  | _ m ih =>
    intro a ha i hi xs hx
    have h0 := hL.wf m a ha
    rw [canon_atom hL.wf (.inl ha) (x := .num xs) trivial]
    refine valD_num (bp := a.basePs) ?_ a.defs h0.inScope (hL.defs m a ha)
      (fun new r p n q old e => (hL.means m a new r p n q old ha e).2) (fun new r p d old e x hx' => by
        have := hL.smooth m a new r p d old ha e x hx'
        rwa [← canon_point hE ha e (scoped_refs h0.inScope e p (by simp [ProcDef.refs])) (innerVals ((canon L).F m) (.num xs)) fun _ => rfl] at this)
      i hi xs hx
    intro i hi xs hx
    unfold baseVal
    cases hb : a.base with
    | none => rw [h0.base_none hb] at hi; simp at hi
    | some u =>
      obtain ⟨b, hb', hsub⟩ := h0.base_sub u hb
      show ∃ vs, (if i ∈ a.basePs then _ else _) = some vs ∧ _
      rw [if_pos hi]
      exact ih u.prior (h0.base_lt u hb) b hb' i (hsub i hi) xs hx

theorem tup_of {G : RF RV} {xs : List Input} (h : ∀ x ∈ xs, ∃ vs, G x = some vs ∧ vs.length = numElements x) :
    ∃ vs, (xs.mapM G).map List.flatten = some vs ∧ vs.length = numElementsL xs := by
  induction xs with
  | nil => exact ⟨[], rfl, rfl⟩
  | cons x xs ih =>
    obtain ⟨vs, hv, lv⟩ := h x (by simp)
    obtain ⟨ws, hw, lw⟩ := ih fun x hx => h x (by simp [hx])
    rw [Option.map_eq_some_iff] at hw
    obtain ⟨wss, hw, rfl⟩ := hw
    refine ⟨vs ++ wss.flatten, ?_, by simp only [List.length_append, lv, lw, numElementsL]⟩
    rw [List.mapM_cons, hv, hw]
    rfl

/-- Canonical values of what is observed. -/
theorem AWorld.Total.seen (hL : L.Total G) (he : L.Elem) {n : MId} {b : AMeas} (hb : L.ms[n]? = some b) {ps : List PId}
    {p : PId} {z : Input} (h : AWorld.Seen G b ps p z) :
    ∃ vs, (canon L).F n p z = some vs ∧ vs.length = numElements z := by
  rcases h with ⟨⟨zs, rfl, hz⟩, -, hp⟩ | ⟨new, old, qs, hd, ⟨xs, _, rfl, hx⟩, cq, _⟩
  · exact hL.values he n b hb p hp zs hz
  · rw [canon_tup hL.wf]
    refine tup_of fun x hx' => ?_
    obtain ⟨q, hq, ys, rfl, hy⟩ := hx x hx'
    have hsc : Scoped b.basePs ((p, .cross qs) :: old) := by
      have h := (hL.wf n b hb).inScope
      rw [hd] at h
      clear hd
      induction new with
      | nil => exact h
      | cons e new ih => exact ih h.2
    have hqb : q ∈ b.ps := by
      have := hsc.1 q hq
      rw [AMeas.ps, mem_knownOf, hd]
      rw [mem_knownOf] at this
      exact this.imp id fun h => by
        simp only [List.map_append, List.map_cons, List.mem_append, List.mem_cons]
        exact .inr (.inr h)
    have h1 : (canon L).F n p (.fdd q (.num ys)) = (canon L).F n q (.num ys) := by
      refine ((canon_def he hb hd (x := .fdd q (.num ys)) trivial).1).trans ?_
      show (if q ∈ qs then _ else _) = _
      rw [if_pos hq]
      rfl
    rw [h1]
    exact hL.values he n b hb q hqb ys hy

end

/-- Programs that do not differentiate. -/
theorem smooth_of {G : Dom} {ops : List Op} (h : ∀ p d, .diff p d ∉ ops) : (specOps ops {}).Smooth G := by
  intro m a es r p d es' ha e
  refine (defs_from (fun e => ∀ p d, e.2 ≠ .diff p d) ops (fun before o after eq m e he => ?_) m a ha (r, .diff p d)
    (by rw [e]; simp) p d rfl).elim
  have ho : ∀ p d, o ≠ .diff p d := fun p d e => h p d (by rw [eq, e]; simp)
  clear eq
  obtain ⟨r', d'⟩ := e
  rintro p d (rfl : d' = _)
  cases o <;> simp [Op.written] at he
  exact ho _ _ rfl

section
variable {G : Dom} {ops : List Op}

/-- Observations of tame programs have the right size. -/
theorem Tame.sized (hr : Tame G ops) : (specOps ops {}).Sized := by
  intro m a u ha hu
  obtain ⟨b, hb, ho⟩ := hr.state.obs m a u ha hu
  cases hu' : u.obs with
  | exact p z noise y =>
    rw [hu'] at ho
    obtain ⟨h1, h2, h3, hseen⟩ := ho
    obtain ⟨vs, hv, lv⟩ := hr.state.seen (elem_reach hr.elem) hb hseen
    exact .inr ⟨vs, hv, h1.trans lv.symm, h2.trans lv.symm⟩
  | pseudo pu p o =>
    rw [hu'] at ho
    obtain ⟨_, h2, h3, h4⟩ := ho
    obtain ⟨zs, hz, lz⟩ := hr.state.seen (elem_reach hr.elem) hb h3
    obtain ⟨xs, hx, lx⟩ := hr.state.seen (elem_reach hr.elem) hb h4
    exact ⟨zs, xs, hz, hx, h2.zr.trans lz.symm, h2.zc.trans lz.symm, h2.xr.trans lx.symm, h2.xc.trans lx.symm⟩

/-- Observations of tame programs are made with noise of positive semi-definite covariance. -/
theorem Tame.posNoise (hr : Tame G ops) : (specOps ops {}).PosNoise := by
  intro m a u ha hu
  obtain ⟨before, after, e, hm, _⟩ := base_from ops m a u ha hu
  have hno := hr.noise u.prior u.obs (by rw [e]; simp)
  obtain ⟨b, hb, ho⟩ := hr.state.obs m a u ha hu
  cases hu' : u.obs with
  | exact p z noise y =>
    rw [hu'] at ho hno
    obtain ⟨vs, hv, lv⟩ := hr.state.seen (elem_reach hr.elem) hb ho.2.2.2
    intro zs hz
    rw [hv] at hz; cases hz
    rw [lv]
    exact hno
  | pseudo pu p o =>
    rw [hu'] at ho hno
    obtain ⟨zs, hz, lz⟩ := hr.state.seen (elem_reach hr.elem) hb ho.2.2.1
    obtain ⟨xs, hx, lx⟩ := hr.state.seen (elem_reach hr.elem) hb ho.2.2.2
    intro zs' xs' hz' hx'
    rw [hz] at hz'; cases hz'
    rw [hx] at hx'; cases hx'
    rw [lz, lx]
    exact hno

/-- Covariances are positive semi-definite in tame programs. -/
theorem Tame.pos (hr : Tame G ops) (m : MId) : ((canon (specOps ops {})).S m).Pos :=
  canon_pos (elem_reach hr.elem).wf hr.sized hr.posNoise m

/-- Tame programs have a reading. -/
theorem Tame.reads (hr : Tame G ops) : (canon (specOps ops {})).Reads ops :=
  (canon_laws (elem_reach hr.elem) hr.sized hr.pos).reads

end

/-- **Elementary programs are read correctly.** There are random variables which satisfy the equations of the program,
and every call of a mean or kernel of a single-output process at numeric inputs returns their expectations and
covariances. -/
theorem returning_reads {G : Dom} {ops : List Op} (hr : Returning G ops) :
    ∃ I : Interp RV, I.Reads ops ∧ ∀ m p, Attached (runOps ops {}) m p → ∀ xs, Rows (G p) xs → ∃ vs,
      I.F m p (.num xs) = some vs ∧ vs.length = xs.length ∧
      MeanCall (runOps ops {}) m p (.num xs) (vs.map (I.S m).E) ∧
      ∀ q, Attached (runOps ops {}) m q → ∀ ys, Rows (G q) ys → ∃ ws, I.F m q (.num ys) = some ws ∧ ws.length = ys.length ∧
        ∃ A, KernelCall (runOps ops {}) m p q (.num xs) (.num ys) A ∧ A.r = xs.length ∧ A.c = ys.length ∧
          ∀ i < xs.length, ∀ j < ys.length, A.e i j = (I.S m).C (vs.getD i 0) (ws.getD j 0) := by
  have hT := hr.state
  have hreads := hr.toTame.reads
  refine ⟨_, hreads, fun m p hp xs hx => ?_⟩
  obtain ⟨a, ha, hpa⟩ := (Inv.reach ops).attached.1 hp
  obtain ⟨vs, hv, lv⟩ := hT.values (elem_reach hr.elem) m a ha p hpa xs hx
  obtain ⟨v, hc, lc⟩ := hr.mean hp hx
  refine ⟨vs, hv, lv, ?_, fun q hq ys hy => ?_⟩
  · rw [← (hreads.mean hc hv).2 (lc.trans lv.symm)]
    exact hc
  · obtain ⟨a', ha', hqa⟩ := (Inv.reach ops).attached.1 hq
    rw [ha] at ha'; cases ha'
    obtain ⟨ws, hw, lw⟩ := hT.values (elem_reach hr.elem) m a ha q hqa ys hy
    obtain ⟨A, hA, rA, cA⟩ := hr.kernel hp hq hx hy
    refine ⟨ws, hw, lw, A, hA, rA, cA, fun i hi j hj => ?_⟩
    exact (hreads.kernel hA hv hw).e (rA.trans lv.symm) (cA.trans lw.symm) i (hi.trans_eq lv.symm) j (hj.trans_eq lw.symm)

end Stheno
