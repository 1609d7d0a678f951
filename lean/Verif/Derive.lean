import Mathlib.Analysis.Calculus.Deriv.Add
import Mathlib.Analysis.Calculus.Deriv.Mul
import Verif.Regular

/-!
# Consequences of the equations

Derivatives in posteriors, processes that are uncorrelated, and processes that are the same.
-/

namespace Stheno

open Matrix

set_option linter.unusedSectionVars false

variable {V : Type} [AddCommGroup V] [Module ℝ V] {I : Interp V}

/-! ## Derivatives -/

theorem deriv_C_right {S : SO V} {g : ℝ → V} {g' v : V} (h : HasDerivAt (fun t => S.C (g t) v) (S.C g' v) 0) :
    HasDerivAt (fun t => S.C v (g t)) (S.C v g') 0 := by
  have e : (fun t => S.C v (g t)) = fun t => S.C (g t) v := by funext t; exact S.symm _ _
  rw [e, S.symm v g']
  exact h

theorem deriv_quadSum {S : SO V} {zs : List V} {W : Matrix (Fin zs.length) (Fin zs.length) ℝ} {g : ℝ → V} {g' v : V}
    (h : ∀ v, HasDerivAt (fun t => S.C (g t) v) (S.C g' v) 0) :
    HasDerivAt (fun t => Stheno.quadSum S zs W (g t) v) (Stheno.quadSum S zs W g' v) 0 := by
  unfold Stheno.quadSum
  refine HasDerivAt.fun_sum fun a _ => HasDerivAt.fun_sum fun b _ => ?_
  exact ((deriv_C_right (h (zs.get a))).mul_const _).mul_const _

/-- Conditioning keeps derivatives. -/
theorem IsUpdate.slope {S S' : SO V} {zs : List V} {noise : Mat} {y : List ℝ} (h : IsUpdate S S' zs noise y)
    (hp : (noisyGram S zs noise).PosDef) (hy : y.length = zs.length) {f : ℝ → V} {w : V} (hd : S.Slope f w) : S'.Slope f w := by
  obtain ⟨h1, h2⟩ := hd
  refine ⟨?_, fun v => ?_⟩
  · simp only [h.E hp hy]
    exact h1.add (HasDerivAt.fun_sum fun a _ => (deriv_C_right (h2 (zs.get a))).mul_const _)
  · simp only [h.C hp]
    exact (h2 v).sub (deriv_quadSum h2)

theorem IsSparseUpdate.slope {S S' : SO V} {zs xs : List V} {o : PseudoData} (h : IsSparseUpdate S S' zs xs o)
    (hp : (noisyGram S zs o.noiseZ).PosDef) (hy : o.y.length = xs.length) {f : ℝ → V} {w : V} (hd : S.Slope f w) :
    S'.Slope f w := by
  obtain ⟨h1, h2⟩ := hd
  refine ⟨?_, fun v => ?_⟩
  · simp only [h.E hp hy]
    exact h1.add (HasDerivAt.fun_sum fun a _ => (deriv_C_right (h2 (zs.get a))).mul_const _)
  · simp only [h.C hp]
    exact ((h2 v).sub (deriv_quadSum h2)).add (deriv_quadSum h2)

/-- The covariance matrix of an observation, or of inducing variables, is positive definite and there are as many data
as observed variables. -/
def Interp.FirmObs (I : Interp V) (m : MId) : Obs → Prop
  | .exact p x noise y => ∀ zs, I.F m p x = some zs → (noisyGram (I.S m) zs noise).PosDef ∧ y.length = zs.length
  | .pseudo pu p o => ∀ zs xs, I.F m pu o.z = some zs → I.F m p o.x = some xs →
      (noisyGram (I.S m) zs o.noiseZ).PosDef ∧ o.y.length = xs.length

/-- All observations of the program are like this. -/
def Interp.Firm (I : Interp V) (ops : List Op) : Prop := ∀ before m obs after, ops = before ++ .condition m obs :: after →
  HasMeasure (runOps before {}) m → I.FirmObs m obs

/-- The values of `p.diff(d)` are the derivatives of those of `p`, at the rows where there are derivatives. -/
theorem Interp.Reads.diff {ops before : List Op} {o : Op} {m : MId} {r p : PId} {d : ℕ} (h : I.Reads ops)
    (hr : Attached (runOps ops {}) m r) (hm : Makes ops before o r (.diff p d)) (xs : List Pt) :
    I.F m r (.num xs) = xs.mapM (I.der (I.F m p) d) := by
  obtain ⟨m0, known, hl, hF, hk, hq⟩ := h.everywhere hm hr
  rw [hF, hl.1 xs, hk p (hq p (by simp [ProcDef.refs])).1]

/-- They are mean-square derivatives in every measure the derivative is in. -/
theorem Interp.Reads.slope {ops before : List Op} {o : Op} {r p : PId} {d : ℕ} (h : I.Reads ops) (hf : I.Firm ops)
    (hm : Makes ops before o r (.diff p d)) : ∀ m : MId, Attached (runOps ops {}) m r → ∀ x w,
      I.der (I.F m p) d x = some w → (I.S m).Slope (fun t => pointOf (I.F m p) (bump d t x)) w := by
  have hl := h.laws
  have iv := Inv.reach ops
  intro m
  induction m using Nat.strong_induction_on with
  | _ m ih =>
    intro hr
    have hrp := h.refs hr hm p (by simp [ProcDef.refs])
    obtain ⟨a, ha, hra⟩ := iv.attached.1 hr
    obtain ⟨a', ha', hpa⟩ := iv.attached.1 hrp
    rw [ha] at ha'; cases ha'
    have wf := iv.wf.ms m a ha
    by_cases hd : r ∈ a.defs.map (·.1)
    · obtain ⟨⟨r', d0⟩, he, rfl⟩ := List.mem_map.1 hd
      obtain ⟨es, es', e⟩ := List.append_of_mem he
      have := hm.defs_eq ha e
      subst this
      exact (hl.defs m a es r' _ es' ha e).2.2
    · have hrb : r ∈ a.basePs := by
        rw [AMeas.ps, mem_knownOf] at hra; exact hra.resolve_right hd
      cases hb : a.base with
      | none => rw [wf.base_none hb] at hrb; simp at hrb
      | some u =>
        obtain ⟨b, hb', hsub⟩ := wf.base_sub u hb
        obtain ⟨hF, hP⟩ := hl.post m a u ha hb
        have hr' : Attached (runOps ops {}) u.prior r := iv.attached.2 ⟨b, hb', hsub r hrb⟩
        have h4 := ih u.prior (wf.base_lt u hb) hr'
        have hpb : I.F m p = I.F u.prior p := by
          obtain ⟨m0, a0, es, d0, es', l1, l2, ha0, hdd, hFr, hps, hk⟩ := h.source m a ha r hra
          have ed := hm.defs_eq ha0 hdd
          subst ed
          have hq' := scoped_refs (iv.wf.ms m0 a0 ha0).inScope hdd p (by simp [ProcDef.refs])
          have hpl := (hk p hq').1
          have hpre : a.basePs <+: a.ps := ⟨_, rfl⟩
          rw [hps] at hpre
          obtain ⟨l, hl⟩ := prefix_of_nodup hpre (hps ▸ wf.nodup) hrb
          exact hF p (by rw [hl]; exact List.mem_append_left _ hpl)
        rw [hpb]
        intro x w hw
        replace h4 := h4 x w hw
        obtain ⟨before', after', e, hmm, _, _⟩ := base_from ops m a u ha hb
        have hfo := hf before' u.prior u.obs after' e hmm
        cases ho : u.obs with
        | exact p' x noise y =>
          rw [ho] at hP hfo
          rcases hP with ⟨_, hS⟩ | ⟨_, zs, hz, hu⟩
          · rw [hS]; exact h4
          · obtain ⟨hp, hy⟩ := hfo zs hz
            exact hu.slope hp hy h4
        | pseudo pu p' o =>
          rw [ho] at hP hfo
          obtain ⟨zs, xs, hz, hx, hu⟩ := hP
          obtain ⟨hp, hy⟩ := hfo zs xs hz hx
          exact hu.slope hp hy h4

/-! ## Uncorrelated processes -/

/-- Definitions of new processes that are independent of everything before. -/
def ProcDef.Fresh : ProcDef → Prop
  | .indep _ _ | .rem _ _ => True
  | _ => False

/-- Definitions in terms of other processes only. -/
def ProcDef.Derived : ProcDef → Prop
  | .indep _ _ | .rem _ _ | .custom _ _ _ => False
  | _ => True

/-- Process `q` does not involve process `r`, which was created in measure `m` after `before`: `q` was there before, or
it was created independently later, or it is derived from processes that do not involve `r`. -/
inductive Apart (ops before : List Op) (m : MId) (r : PId) : PId → Prop
  | old {q : PId} : q ∈ members (runOps before {}) m → Apart ops before m r q
  | later {b after : List Op} {o : Op} {older younger : List (PId × ProcDef)} {q : PId} {d : ProcDef} :
      ops = b ++ o :: after → o.written (runOps b {}).gps.length m = older ++ (q, d) :: younger →
      Attached (runOps (b ++ [o]) {}) m q → d.Fresh → r ∈ members (runOps b {}) m → Apart ops before m r q
  | made {b after : List Op} {o : Op} {older younger : List (PId × ProcDef)} {q : PId} {d : ProcDef} :
      ops = b ++ o :: after → o.written (runOps b {}).gps.length m = older ++ (q, d) :: younger →
      Attached (runOps (b ++ [o]) {}) m q → d.Derived → (∀ p ∈ d.refs, Apart ops before m r p) → Apart ops before m r q

theorem mapM_source {α β : Type} {f : α → Option β} {as : List α} {bs : List β} (h : as.mapM f = some bs) :
    ∀ b ∈ bs, ∃ a ∈ as, f a = some b := by
  induction as generalizing bs with
  | nil => cases h; simp
  | cons a as ih =>
    rw [List.mapM_cons] at h
    cases ha : f a with
    | none => rw [ha] at h; cases h
    | some b =>
      cases has : as.mapM f with
      | none => rw [ha, has] at h; cases h
      | some bs' =>
        rw [ha, has] at h
        cases h
        intro c hc
        rcases List.mem_cons.1 hc with rfl | hc
        · exact ⟨a, by simp, ha⟩
        · obtain ⟨a', h1, h2⟩ := ih has c hc
          exact ⟨a', by simp [h1], h2⟩

/-- What holds for the values at inputs that are not tuples holds for all values. -/
theorem RF.OK.forall {G : RF V} (ok : G.OK) {P : V → Prop} (h : ∀ x, x.IsAtom → ∀ vs, G x = some vs → ∀ v ∈ vs, P v) :
    ∀ x vs, G x = some vs → ∀ v ∈ vs, P v
  | .num xs => h (.num xs) trivial
  | .fdd p x => h (.fdd p x) trivial
  | .tup xs => by
    intro vs hv v hvs
    rw [ok.tup xs, Option.map_eq_some_iff] at hv
    obtain ⟨wss, hw, rfl⟩ := hv
    obtain ⟨ws, hws, hv⟩ := List.mem_flatten.1 hvs
    obtain ⟨x, hx, hG⟩ := mapM_source hw ws hws
    exact RF.OK.forall ok h x ws hG v hv
termination_by x => sizeOf x

/-- A variable that is uncorrelated with everything a process is derived from is uncorrelated with the process. -/
theorem Interp.DefLaw.null {lm : MId → PId → Option MExpr} {lk : MId → PId → PId → Option KExpr} {m : MId}
    {known : List PId} {q : PId} {d : ProcDef} (h : I.DefLaw lm lk m known q d) (hd : d.Derived) (ok : (I.F m q).OK)
    (h1 : ∀ v, (I.S m).C I.one v = 0) {v : V}
    (hp : ∀ p ∈ d.refs, ∀ x vs, I.F m p x = some vs → ∀ w ∈ vs, (I.S m).C v w = 0) :
    ∀ x vs, I.F m q x = some vs → ∀ w ∈ vs, (I.S m).C v w = 0 := by
  refine ok.forall fun x hx vs hv w hw => ?_
  have h1' : (I.S m).C v I.one = 0 := ((I.S m).symm _ _).trans (h1 v)
  cases d with
  | indep | rem | custom => exact hd.elim
  | addFn p f =>
    rw [h x hx] at hv
    obtain ⟨vs', e1, hv⟩ := bind_some hv
    obtain ⟨us, e2, hv⟩ := bind_some hv
    cases hv
    obtain ⟨i, hi, rfl⟩ := List.mem_iff_getElem.1 hw
    rw [List.getElem_zipWith, map_add, map_smul, h1', smul_zero, add_zero]
    exact hp p (by simp [ProcDef.refs]) x vs' e1 _ (List.getElem_mem _)
  | fmul p f =>
    rw [h x hx] at hv
    obtain ⟨vs', e1, hv⟩ := bind_some hv
    obtain ⟨us, e2, hv⟩ := bind_some hv
    cases hv
    obtain ⟨i, hi, rfl⟩ := List.mem_iff_getElem.1 hw
    rw [List.getElem_zipWith, map_smul, hp p (by simp [ProcDef.refs]) x vs' e1 _ (List.getElem_mem _), smul_zero]
  | sum p p' =>
    rw [h x hx] at hv
    obtain ⟨vs', e1, hv⟩ := bind_some hv
    obtain ⟨ws', e2, hv⟩ := bind_some hv
    unfold zipAdd at hv
    split at hv
    · cases hv
      obtain ⟨i, hi, rfl⟩ := List.mem_iff_getElem.1 hw
      rw [List.getElem_zipWith, map_add, hp p (by simp [ProcDef.refs]) x vs' e1 _ (List.getElem_mem _),
        hp p' (by simp [ProcDef.refs]) x ws' e2 _ (List.getElem_mem _), add_zero]
    · cases hv
  | scale p c =>
    rw [h x hx, Option.map_eq_some_iff] at hv
    obtain ⟨vs', e1, rfl⟩ := hv
    obtain ⟨w', hw', rfl⟩ := List.mem_map.1 hw
    rw [map_smul, hp p (by simp [ProcDef.refs]) x vs' e1 w' hw', smul_zero]
  | pre p t =>
    rw [h x hx] at hv
    obtain ⟨x', e1, hv⟩ := bind_some hv
    exact hp p (by simp [ProcDef.refs]) x' vs hv w hw
  | copy p =>
    change I.F m q = I.F m p at h
    rw [h] at hv
    exact hp p (by simp [ProcDef.refs]) x vs hv w hw
  | cross ps =>
    obtain ⟨hn, hf⟩ := h
    match x, hx with
    | .num xs, _ =>
      rw [hn xs, Option.map_eq_some_iff] at hv
      obtain ⟨wss, hw', rfl⟩ := hv
      obtain ⟨ws, hws, hv⟩ := List.mem_flatten.1 hw
      obtain ⟨p, hp', hG⟩ := mapM_source hw' ws hws
      exact hp p (by simpa [ProcDef.refs] using hp') _ ws hG w hv
    | .fdd p x, _ =>
      rw [hf p x] at hv
      split at hv
      · next hp' => exact hp p (by simpa [ProcDef.refs] using hp') x vs hv w hw
      · cases hv
  | diff p d =>
    obtain ⟨hn, hf, hder⟩ := h
    match x, hx with
    | .num xs, _ =>
      rw [hn xs] at hv
      obtain ⟨x, hx, hd⟩ := mapM_source hv w hw
      have h0 : ∀ t, (I.S m).C (pointOf (I.F m p) (bump d t x)) v = 0 := fun t => by
        obtain ⟨z, hz⟩ := (RF.der_some hd).1.2 t
        rw [show pointOf (I.F m p) (bump d t x) = z by simp [pointOf, hz]]
        exact ((I.S m).symm _ _).trans (hp p (by simp [ProcDef.refs]) _ _ hz z (by simp))
      have := (hder x w hd).2 v
      simp only [h0] at this
      exact ((I.S m).symm _ _).trans (this.unique (hasDerivAt_const _ _))
    | .fdd p x, _ => rw [hf p x] at hv; cases hv

/-- A new GP is uncorrelated with all processes that do not involve it. -/
theorem Interp.Reads.apart {ops before : List Op} {o : Op} {mean : MExpr} {k : KExpr} {r q : PId} {m : MId}
    (h : I.Reads ops) (hr : Makes ops before o r (.indep mean k)) (hat : Attached (runOps (before ++ [o]) {}) m r)
    (hq : Apart ops before m r q) : (I.S m).Orth (I.F m r) (I.F m q) := by
  obtain ⟨after, e⟩ := hr.split
  induction hq with
  | old hq =>
    have hl := h.defs before o after e m [] r (.indep mean k) [] (by rw [Op.makes_written hr.makes, hr.id]; rfl) hat
    exact hl.2.2 _ (by simpa using hq)
  | @later b after' o' older younger q d e' hw hat' hd hr' =>
    have hl := h.defs _ _ _ e' m _ _ _ _ hw hat'
    have sy : (I.S m).Orth (I.F m q) (I.F m r) → (I.S m).Orth (I.F m r) (I.F m q) := fun H x y vs ws hx hy v hv w hw =>
      ((I.S m).symm _ _).trans (H y x ws vs hy hx w hw v hv)
    refine sy ?_
    cases d with
    | indep => exact hl.2.2 r (List.mem_append_left _ hr')
    | rem => exact hl.2.2 r (List.mem_append_left _ hr')
    | _ => exact hd.elim
  | made e' hw hat' hd _ ih =>
    have hl := h.defs _ _ _ e' m _ _ _ _ hw hat'
    intro x y vs ws hx hy v hv
    exact hl.null hd (h.ok m _) (h.one_C m) (fun p hp y ws hy w hw => ih p hp x y vs ws hx hy v hv w hw) y ws hy

/-! ## Processes that are the same -/

/-- Processes in measure `m` that were made in the same way: copies, and what is derived in the same way from
processes that were made in the same way. -/
inductive Twin (ops : List Op) (m : MId) : PId → PId → Prop
  | refl (p : PId) : Twin ops m p p
  | symm {p q : PId} : Twin ops m p q → Twin ops m q p
  | trans {p q r : PId} : Twin ops m p q → Twin ops m q r → Twin ops m p r
  | copy {b : List Op} {m' : MId} {p r : PId} : Runs ops b (.call m' p) r → Attached (runOps ops {}) m r → Twin ops m r p
  | sum {b b' : List Op} {p q r p' q' r' : PId} {ord ord' : List MId} : Runs ops b (.add p q ord) r →
      Runs ops b' (.add p' q' ord') r' → Attached (runOps ops {}) m r → Attached (runOps ops {}) m r' →
      Twin ops m p p' → Twin ops m q q' → Twin ops m r r'
  | scale {b b' : List Op} {p r p' r' : PId} {c : ℝ} : Runs ops b (.scale p c) r → Runs ops b' (.scale p' c) r' →
      Attached (runOps ops {}) m r → Attached (runOps ops {}) m r' → Twin ops m p p' → Twin ops m r r'
  | addFn {b b' : List Op} {p r p' r' : PId} {f : Fn} : Runs ops b (.addFn p f) r → Runs ops b' (.addFn p' f) r' →
      Attached (runOps ops {}) m r → Attached (runOps ops {}) m r' → Twin ops m p p' → Twin ops m r r'
  | fmul {b b' : List Op} {p r p' r' : PId} {f : Fn} : Runs ops b (.fmul p f) r → Runs ops b' (.fmul p' f) r' →
      Attached (runOps ops {}) m r → Attached (runOps ops {}) m r' → Twin ops m p p' → Twin ops m r r'
  | pre {b b' : List Op} {p r p' r' : PId} {t : InTr} : Runs ops b (.pre p t) r → Runs ops b' (.pre p' t) r' →
      (∀ j, t ≠ .toFdd j) →
      Attached (runOps ops {}) m r → Attached (runOps ops {}) m r' → Twin ops m p p' → Twin ops m r r'
  | diff {b b' : List Op} {p r p' r' : PId} {d : ℕ} : Runs ops b (.diff p d) r → Runs ops b' (.diff p' d) r' →
      Attached (runOps ops {}) m r → Attached (runOps ops {}) m r' → Twin ops m p p' → Twin ops m r r'
  | cross {b b' : List Op} {ps ps' : List PId} {r r' : PId} {ord ord' : List MId} : Runs ops b (.cross ps ord) r →
      Runs ops b' (.cross ps' ord') r' → Attached (runOps ops {}) m r → Attached (runOps ops {}) m r' →
      ps.length = ps'.length → (∀ i < ps.length, Twin ops m (ps.getD i 0) (ps'.getD i 0)) → Twin ops m r r'

theorem InTr.apply_num {t : InTr} (ht : ∀ j, t ≠ .toFdd j) {xs : List Pt} {x : Input} (h : t.apply (.num xs) = some x) :
    ∃ xs', x = .num xs' := by
  cases t with
  | none => cases h; exact ⟨_, rfl⟩
  | shift a =>
    change (xs.mapM (Amt.sub · a)).map Input.num = _ at h
    obtain ⟨ys, _, rfl⟩ := Option.map_eq_some_iff.1 h; exact ⟨_, rfl⟩
  | stretch a =>
    change (xs.mapM (Amt.div · a)).map Input.num = _ at h
    obtain ⟨ys, _, rfl⟩ := Option.map_eq_some_iff.1 h; exact ⟨_, rfl⟩
  | select ds =>
    change (xs.mapM fun x => ds.mapM (x[·]?)).map Input.num = _ at h
    obtain ⟨ys, _, rfl⟩ := Option.map_eq_some_iff.1 h; exact ⟨_, rfl⟩
  | map g => cases h; exact ⟨_, rfl⟩
  | toFdd j => exact (ht j rfl).elim

/-- Processes that were made in the same way have the same values. -/
theorem Interp.Reads.twin {ops : List Op} {m : MId} (h : I.Reads ops) {p q : PId} (ht : Twin ops m p q) (xs : List Pt) :
    I.F m p (.num xs) = I.F m q (.num xs) := by
  induction ht generalizing xs with
  | refl p => rfl
  | symm _ ih => exact (ih xs).symm
  | trans _ _ ih1 ih2 => exact (ih1 xs).trans (ih2 xs)
  | copy hr ha => rw [h.copy ha (hr.of rfl)]
  | sum hr hr' ha ha' _ _ ih1 ih2 =>
    rw [h.sum ha (hr.of rfl) (x := .num xs) trivial, h.sum ha' (hr'.of rfl) (x := .num xs) trivial, ih1, ih2]
  | scale hr hr' ha ha' _ ih =>
    rw [h.scale ha (hr.of rfl) (x := .num xs) trivial, h.scale ha' (hr'.of rfl) (x := .num xs) trivial, ih]
  | addFn hr hr' ha ha' _ ih =>
    rw [h.addFn ha (hr.of rfl) (x := .num xs) trivial, h.addFn ha' (hr'.of rfl) (x := .num xs) trivial, ih]
  | fmul hr hr' ha ha' _ ih =>
    rw [h.fmul ha (hr.of rfl) (x := .num xs) trivial, h.fmul ha' (hr'.of rfl) (x := .num xs) trivial, ih]
  | @pre b b' p r p' r' t hr hr' ht ha ha' _ ih =>
    rw [h.pre ha (hr.of rfl) (x := .num xs) trivial, h.pre ha' (hr'.of rfl) (x := .num xs) trivial]
    cases ex : t.apply (.num xs) with
    | none => rfl
    | some x =>
      obtain ⟨xs', rfl⟩ := InTr.apply_num ht ex
      exact ih xs'
  | @diff b b' p r p' r' d hr hr' ha ha' _ ih =>
    rw [h.diff ha (hr.of rfl), h.diff ha' (hr'.of rfl)]
    have : I.der (I.F m p) d = I.der (I.F m p') d := by
      funext x
      have ha : (I.F m p).Along d x = (I.F m p').Along d x := by simp only [RF.Along, ih]
      have hp : (fun t => pointOf (I.F m p) (bump d t x)) = fun t => pointOf (I.F m p') (bump d t x) := by
        funext t; simp only [pointOf, ih]
      unfold Interp.der RF.der
      classical exact if_congr (iff_of_eq ha) (congrArg I.D hp) rfl
    rw [this]
  | @cross b b' ps ps' r r' ord ord' hr hr' ha ha' hlen _ ih =>
    rw [(h.cross ha (hr.of rfl)).1, (h.cross ha' (hr'.of rfl)).1]
    congr 1
    have : ps.map (fun p => I.F m p (.num xs)) = ps'.map (fun p => I.F m p (.num xs)) := by
      refine List.ext_getElem (by simpa using hlen) fun i hi hi' => ?_
      rw [List.length_map] at hi hi'
      have := ih i hi xs
      simpa [hi, hi'] using this
    have e : ∀ l : List PId, l.mapM (fun p => I.F m p (.num xs)) = (l.map fun p => I.F m p (.num xs)).mapM id := fun l => by
      rw [List.mapM_map]; rfl
    rw [e ps, e ps', this]

/-- Regular programs have such observations. -/
theorem Regular.firm {G : Dom} {ops : List Op} (h : Regular G ops) : (reading ops).Firm ops := by
  intro before m obs after e hm
  have ho := h.obs before m obs after e hm
  have hpd := h.pd before m obs after e hm
  cases obs with
  | exact p z noise y =>
    obtain ⟨h1, h2, h3, hs⟩ := ho
    obtain ⟨-, ⟨A, hA, rA, cA⟩, -⟩ := h.observed_calls e hm hs
    intro zs hz
    obtain ⟨vs, hF, lF⟩ := h.observed_value e hm hs
    rw [hF] at hz; cases hz
    refine ⟨?_, h3.trans lF.symm⟩
    obtain ⟨K, hK, -⟩ := Mat.add_shape (B := noise) ⟨rA, cA⟩ ⟨h1, h2⟩
    obtain ⟨rK, eK⟩ := Tame.noisy_gram h.toTame hF lF hA h1 h2 hK
    have hpd := hpd A K hA hK
    rw [rK, eK] at hpd
    exact hpd
  | pseudo pu p o =>
    obtain ⟨-, fit, h1, h2⟩ := ho
    obtain ⟨-, ⟨A, hA, rA, cA⟩, -⟩ := h.observed_calls e hm h1
    obtain ⟨-, -, u, hu, lu⟩ := h.observed_calls e hm h2
    obtain ⟨Z, hZ, rZ, cZ⟩ := h.observed_pair e hm h1 h2
    intro zs xs hz hx
    obtain ⟨zs', hz', lz⟩ := h.observed_value e hm h1
    obtain ⟨xs', hx', lx⟩ := h.observed_value e hm h2
    rw [hz'] at hz; cases hz
    rw [hx'] at hx; cases hx
    refine ⟨?_, fit.y.trans lx.symm⟩
    obtain ⟨K, hK, -⟩ := Mat.add_shape (B := o.noiseZ) ⟨rA, cA⟩ ⟨fit.zr, fit.zc⟩
    obtain ⟨rK, eK⟩ := Tame.noisy_gram h.toTame hz' lz hA fit.zr fit.zc hK
    have hpd := (hpd A K Z u hA hK hZ hu (lu.trans cZ.symm)).1
    rw [rK, eK] at hpd
    exact hpd

end Stheno
