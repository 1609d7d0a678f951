import Verif.Run
import Verif.Post
import Verif.Props.Derive

/-!
# Calls of means and kernels of products

What means and kernels of `p * q` return (`stheno/model/measure.py:253-269`), given what those of `p` and `q` return.
-/

namespace Stheno

section
variable {ops before after : List Op} {o : Op} {m : MId} {r : PId} {d : ProcDef} {older younger : List (PId × ProcDef)}

theorem runL_congr {lk lk' : PId → PId → Option KExpr} {known : List PId} {j : PId}
    (h : ∀ i ∈ known, ∀ j ∈ known, lk i j = lk' i j) (hj : j ∈ known) :
    ∀ l : LRule, (∀ q ∈ l.refs, q ∈ known) → runL lk j l = runL lk' j l
  | .zero, _ | .const _, _ | .fn _, _ | .cross _ _, _ => rfl
  | .map2 _ a b, hl => by
    simp only [runL, runL_congr h hj a fun q hq => hl q (by simp [LRule.refs, hq]), runL_congr h hj b fun q hq => hl q (by simp [LRule.refs, hq])]
  | .look p, hl => h p (hl p (by simp [LRule.refs])) j hj
  | .lookR p, hl => h j hj p (hl p (by simp [LRule.refs]))
  | .add a b, hl => by
    simp only [runL, runL_congr h hj a fun q hq => hl q (by simp [LRule.refs, hq]), runL_congr h hj b fun q hq => hl q (by simp [LRule.refs, hq])]
  | .scale _ a, hl => by simp only [runL, runL_congr h hj a fun q hq => hl q hq]
  | .tmul _ _ a, hl => by simp only [runL, runL_congr h hj a fun q hq => hl q hq]
  | .pre _ _ a, hl => by simp only [runL, runL_congr h hj a fun q hq => hl q hq]
  | .diff _ _ a, hl => by simp only [runL, runL_congr h hj a fun q hq => hl q hq]

section
variable {lk lk' : PId → PId → Option KExpr} {lm lm' : PId → Option MExpr} {known : List PId} {d : ProcDef} {m : MId}

theorem defMean_congr (h : ∀ i ∈ known, lm i = lm' i) (hd : ∀ q ∈ d.refs, q ∈ known) : defMean m lm d = defMean m lm' d := by
  cases d <;> simp only [ProcDef.refs, List.mem_cons, List.not_mem_nil, or_false, forall_eq, forall_eq_or_imp] at hd <;>
    simp only [defMean] <;> first | rw [h _ hd] | rw [h _ hd.1, h _ hd.2]

theorem defKernel_congr (h : ∀ i ∈ known, ∀ j ∈ known, lk i j = lk' i j) (hd : ∀ q ∈ d.refs, q ∈ known) :
    defKernel m lk d = defKernel m lk' d := by
  cases d <;> simp only [ProcDef.refs, List.mem_cons, List.not_mem_nil, or_false, forall_eq, forall_eq_or_imp] at hd <;>
    simp only [defKernel] <;> first | rw [h _ hd _ hd] | rw [h _ hd.1 _ hd.1, h _ hd.2 _ hd.2, h _ hd.1 _ hd.2, h _ hd.2 _ hd.1]

theorem defLeft_congr (h : ∀ i ∈ known, ∀ j ∈ known, lk i j = lk' i j) (hd : ∀ q ∈ d.refs, q ∈ known) {j : PId} (hj : j ∈ known) :
    defLeft m lk j d = defLeft m lk' j d := by
  cases d <;> simp only [ProcDef.refs, List.mem_cons, List.not_mem_nil, or_false, forall_eq, forall_eq_or_imp] at hd <;>
    simp only [defLeft] <;> first | exact runL_congr h hj _ hd | rw [h _ hd _ hj] | rw [h _ hd.1 _ hj, h _ hd.2 _ hj]

theorem defRight_congr (h : ∀ i ∈ known, ∀ j ∈ known, lk i j = lk' i j) (hd : ∀ q ∈ d.refs, q ∈ known) {j : PId} (hj : j ∈ known) :
    defRight m lk j d = defRight m lk' j d := by
  cases d with
  | indep | rem => rfl
  | copy p => exact h j hj p (hd p (by simp [ProcDef.refs]))
  | _ => simp only [defRight, defLeft_congr (m := m) h hd hj]

end

/-- In measure `m` the process `r` was defined as `d` when the processes `known` were in it. -/
structure Placed (w : World) (m : MId) (known : List PId) (r : PId) (d : ProcDef) : Prop where
  refs : ∀ q ∈ d.refs, q ∈ known
  mean : meanAt w m r = defMean m (meanAt w m) d
  kernel : kernelAt w m r r = defKernel m (kernelAt w m) d
  left : ∀ q ∈ known, kernelAt w m r q = defLeft m (kernelAt w m) q d
  right : ∀ q ∈ known, kernelAt w m q r = defRight m (kernelAt w m) q d

/-- Kernels and means of a process that an operation creates, in terms of those of the processes before it. -/
theorem look_written (e : ops = before ++ o :: after) (hw : o.written (runOps before {}).gps.length m = older ++ (r, d) :: younger)
    (hat : Attached (runOps (before ++ [o]) {}) m r) :
    (∀ i ∈ older.map (·.1), Attached (runOps (before ++ [o]) {}) m i) ∧
      Placed (runOps ops {}) m (members (runOps before {}) m ++ older.map (·.1)) r d := by
  have iv := Inv.reach ops
  have iv' := Inv.reach (before ++ [o])
  obtain ⟨a', es, es', ha', hd, hk⟩ := written_attached hw hat
  have hold : ∀ i ∈ older.map (·.1), Attached (runOps (before ++ [o]) {}) m i := fun i hi => by
    refine iv'.attached.2 ⟨a', ha', ?_⟩
    have : i ∈ knownOf a'.basePs es' := by rw [hk]; exact List.mem_append_right _ hi
    rw [AMeas.ps, mem_knownOf, hd]
    rw [mem_knownOf] at this
    exact this.imp id fun h => by simp only [List.map_append, List.map_cons, List.mem_append, List.mem_cons]; exact .inr (.inr h)
  refine ⟨hold, ?_⟩
  generalize members (runOps before {}) m ++ older.map (·.1) = known at *
  obtain ⟨b, hb, _, hbp, t, ht⟩ := ops_grow _ after ha'
  have eo : before ++ [o] ++ after = ops := by rw [e]; simp
  rw [eo] at hb
  have hd' : b.defs = (t ++ es) ++ (r, d) :: es' := by rw [← ht, hd]; simp
  rw [← hbp] at hk
  have hn := (iv.wf.ms m b hb).nodup
  have hrefs := scoped_refs (iv.wf.ms m b hb).inScope hd'
  rw [hk] at hrefs
  rw [AMeas.ps, knownOf, hd'] at hn
  simp only [List.map_append, List.map_cons, List.reverse_append, List.reverse_cons, List.append_assoc] at hn
  have hr' : r ∉ (t ++ es).map (·.1) ∧ ∀ q ∈ known, q ∉ (t ++ es).map (·.1) ∧ q ≠ r := by
    rw [← List.append_assoc, ← knownOf, hk, List.nodup_append] at hn
    obtain ⟨_, h2, h3⟩ := hn
    constructor
    · intro h
      rw [List.singleton_append, List.nodup_cons] at h2
      refine h2.1 ?_
      simp only [List.map_append, List.mem_append, List.mem_reverse] at h ⊢
      exact h.symm
    · intro q hq
      constructor
      · intro h
        refine h3 q hq q ?_ rfl
        simp only [List.map_append, List.mem_append, List.mem_reverse] at h ⊢
        exact .inr h.symm
      · intro h
        exact h3 q hq r (by simp) h
  have look : ∀ i j, kernelAt (runOps ops {}) m i j = lookKDefs m ((specOps ops {}).baseK b) b.basePs b.defs i j := by
    intro i j
    rw [iv.kernelAt m i j, kernel_eq (fun m a h => (iv.wf.ms m a h).base_lt) hb]
  have lookM : ∀ i, meanAt (runOps ops {}) m i = lookMDefs m ((specOps ops {}).baseM b) b.basePs b.defs i := by
    intro i
    rw [iv.meanAt m i, mean_eq (fun m a h => (iv.wf.ms m a h).base_lt) hb]
  have cm : ∀ i ∈ known, meanAt (runOps ops {}) m i = lookMDefs m ((specOps ops {}).baseM b) b.basePs es' i := fun i hi => by
    rw [lookM, hd', lookMDefs_append (hr'.2 i hi).1]
    simp only [lookMDefs]
    rw [if_neg (hr'.2 i hi).2]
  have ck : ∀ i ∈ known, ∀ j ∈ known, kernelAt (runOps ops {}) m i j = lookKDefs m ((specOps ops {}).baseK b) b.basePs es' i j :=
    fun i hi j hj => by
      rw [look, hd', lookKDefs_append (hr'.2 i hi).1 (hr'.2 j hj).1]
      simp only [lookKDefs]
      rw [if_neg (hr'.2 i hi).2, if_neg (hr'.2 j hj).2]
  refine ⟨hrefs, ?_, ?_, fun q hq => ?_, fun q hq => ?_⟩
  · rw [defMean_congr cm hrefs, lookM, hd', lookMDefs_append hr'.1]
    simp only [lookMDefs, if_true]
  · rw [defKernel_congr ck hrefs, look, hd', lookKDefs_append hr'.1 hr'.1]
    simp only [lookKDefs, if_true]
  · rw [defLeft_congr ck hrefs hq, look, hd', lookKDefs_append hr'.1 (hr'.2 q hq).1]
    simp only [lookKDefs, if_true]
    rw [if_neg (hr'.2 q hq).2, if_pos (hk ▸ hq)]
  · rw [defRight_congr ck hrefs hq, look, hd', lookKDefs_append (hr'.2 q hq).1 hr'.1]
    simp only [lookKDefs, if_true]
    rw [if_neg (hr'.2 q hq).2, if_pos (hk ▸ hq)]

end

/-! ## Kernels and means with given values -/

section
variable (lm : MId → PId → Option MExpr) (lk : MId → PId → PId → Option KExpr)

/-- Calls of `k` at inputs in `T` and `U` return, with entries `F`. -/
def YieldsK (T U : Input → Prop) (k : KExpr) (F : Input → Input → ℕ → ℕ → ℝ) : Prop :=
  ∀ x y, T x → U y → ∃ A, RunK lm lk k x y A ∧ A.r = numElements x ∧ A.c = numElements y ∧
    ∀ i < numElements x, ∀ j < numElements y, A.e i j = F x y i j

/-- Calls of the mean `a` at inputs in `T` return, with entries `v`. -/
def YieldsM (T : Input → Prop) (a : MExpr) (v : Input → ℕ → ℝ) : Prop :=
  ∀ x, T x → ∃ u, RunM lm lk a x u ∧ u.length = numElements x ∧ ∀ i < numElements x, u.getD i 0 = v x i

/-- Calls of the function `f` at inputs in `T` return, with entries `v`. -/
def YieldsF (T : Input → Prop) (f : Fn) (v : Input → ℕ → ℝ) : Prop :=
  ∀ x, T x → ∃ u, RunF lm lk f x u ∧ u.length = numElements x ∧ ∀ i < numElements x, u.getD i 0 = v x i

end

section
variable {lm : MId → PId → Option MExpr} {lk : MId → PId → PId → Option KExpr} {T U : Input → Prop} {a b k : KExpr}
  {F G : Input → Input → ℕ → ℕ → ℝ}

theorem YieldsK.congr (h : YieldsK lm lk T U k F)
    (e : ∀ x y, T x → U y → ∀ i < numElements x, ∀ j < numElements y, F x y i j = G x y i j) : YieldsK lm lk T U k G := fun x y hx hy => by
  obtain ⟨A, hA, hr, hc, hF⟩ := h x y hx hy
  exact ⟨A, hA, hr, hc, fun i hi j hj => (hF i hi j hj).trans (e x y hx hy i hi j hj)⟩

section
variable (hT : ∀ x, T x → x.IsAtom) (hU : ∀ y, U y → y.IsAtom)
include hT hU

theorem YieldsK.zero : YieldsK lm lk T U .zero fun _ _ _ _ => 0 := fun x y hx hy =>
  ⟨_, RunK.zero (hT x hx) (hU y hy), rfl, rfl, fun _ _ _ _ => rfl⟩

theorem YieldsK.eq_zero (h : YieldsK lm lk T U .zero F) : ∀ x y, T x → U y → ∀ i < numElements x, ∀ j < numElements y, F x y i j = 0 :=
  fun x y hx hy i hi j hj => by
    obtain ⟨A, hA, _, _, hF⟩ := h x y hx hy
    rw [← hF i hi j hj, hA.unique (RunK.zero (hT x hx) (hU y hy))]

theorem YieldsK.kadd (ha : YieldsK lm lk T U a F) (hb : YieldsK lm lk T U b G) :
    YieldsK lm lk T U (kadd a b) fun x y i j => F x y i j + G x y i j := by
  rcases kadd_cases a b with ⟨rfl, h⟩ | ⟨rfl, h⟩ | h
  · rw [h]
    exact hb.congr fun x y hx hy i hi j hj => by rw [ha.eq_zero hT hU x y hx hy i hi j hj, zero_add]
  · rw [h]
    exact ha.congr fun x y hx hy i hi j hj => by rw [hb.eq_zero hT hU x y hx hy i hi j hj, add_zero]
  · rw [h]
    intro x y hx hy
    obtain ⟨A, hA, hr, hc, hF⟩ := ha x y hx hy
    obtain ⟨B, hB, hr', hc', hG⟩ := hb x y hx hy
    refine ⟨⟨A.r, A.c, fun i j => A.e i j + B.e i j⟩, RunK.add (hT x hx) (hU y hy) hA hB (if_pos ⟨hr.trans hr'.symm, hc.trans hc'.symm⟩), hr, hc,
      fun i hi j hj => ?_⟩
    show A.e i j + B.e i j = _
    rw [hF i hi j hj, hG i hi j hj]

theorem YieldsK.kmul (ha : YieldsK lm lk T U a F) (hb : YieldsK lm lk T U b G) :
    YieldsK lm lk T U (kmul a b) fun x y i j => F x y i j * G x y i j := by
  rcases kmul_cases a b with ⟨rfl, h⟩ | ⟨rfl, h⟩ | h
  · rw [h]
    exact (YieldsK.zero hT hU).congr fun x y hx hy i hi j hj => by rw [ha.eq_zero hT hU x y hx hy i hi j hj, zero_mul]
  · rw [h]
    exact (YieldsK.zero hT hU).congr fun x y hx hy i hi j hj => by rw [hb.eq_zero hT hU x y hx hy i hi j hj, mul_zero]
  · rw [h]
    intro x y hx hy
    obtain ⟨A, hA, hr, hc, hF⟩ := ha x y hx hy
    obtain ⟨B, hB, hr', hc', hG⟩ := hb x y hx hy
    refine ⟨⟨A.r, A.c, fun i j => A.e i j * B.e i j⟩, RunK.mul (hT x hx) (hU y hy) hA hB (if_pos ⟨hr.trans hr'.symm, hc.trans hc'.symm⟩), hr, hc,
      fun i hi j hj => ?_⟩
    show A.e i j * B.e i j = _
    rw [hF i hi j hj, hG i hi j hj]

theorem YieldsK.krev (h : YieldsK lm lk U T k F) : YieldsK lm lk T U (krev k) fun x y i j => F y x j i := by
  by_cases h0 : k = .zero
  · subst h0
    exact (YieldsK.zero hT hU).congr fun x y hx hy i hi j hj => (h.eq_zero hU hT y x hy hx j hj i hi).symm
  · have : Stheno.krev k = .rev k := by
      unfold Stheno.krev; split
      · exact (h0 rfl).elim
      · rfl
    rw [this]
    intro x y hx hy
    obtain ⟨A, hA, hr, hc, hF⟩ := h y x hy hx
    exact ⟨A.tr, RunK.rev (hT x hx) (hU y hy) hA, hc, hr, fun i hi j hj => hF j hj i hi⟩

theorem YieldsK.tprod {f g : Fn} {u v : Input → ℕ → ℝ} (hf : YieldsF lm lk T f u) (hg : YieldsF lm lk U g v) :
    YieldsK lm lk T U (.tprod f g) fun x y i j => u x i * v y j := fun x y hx hy => by
  obtain ⟨u', hu, lu, eu⟩ := hf x hx
  obtain ⟨v', hv, lv, ev⟩ := hg y hy
  exact ⟨_, RunK.tprod (hT x hx) (hU y hy) hu hv, lu, lv, fun i hi j hj => by
    show u'.getD i 0 * v'.getD j 0 = _
    rw [eu i hi, ev j hj]⟩

end

theorem YieldsF.const (c : ℝ) : YieldsF lm lk T (.const c) fun _ _ => c := fun x _ =>
  ⟨_, RunF.const, by simp, fun i hi => by simp [hi]⟩

theorem YieldsF.meanOf {m : MId} {p : PId} {a : MExpr} {v : Input → ℕ → ℝ} (ha : lm m p = some a) (h : YieldsM lm lk T a v) :
    YieldsF lm lk T (.meanOf m p) v := fun x hx => by
  obtain ⟨u, hu, l, e⟩ := h x hx
  exact ⟨u, RunF.meanOf ha hu, l, e⟩

section
variable {a b : MExpr} {u v : Input → ℕ → ℝ}

theorem YieldsM.fn {f : Fn} (h : YieldsF lm lk T f v) : YieldsM lm lk T (.fn f) v := fun x hx => by
  obtain ⟨u, hu, l, e⟩ := h x hx
  exact ⟨u, RunM.fn hu, l, e⟩

theorem YieldsM.add (ha : YieldsM lm lk T a u) (hb : YieldsM lm lk T b v) : YieldsM lm lk T (.add a b) fun x i => u x i + v x i := fun x hx => by
  obtain ⟨u', hu, lu, eu⟩ := ha x hx
  obtain ⟨v', hv, lv, ev⟩ := hb x hx
  refine ⟨List.zipWith (· + ·) u' v', RunM.add hu hv (if_pos (lu.trans lv.symm)), by simp [lu, lv], fun i hi => ?_⟩
  show _ = u x i + v x i
  rw [← eu i hi, ← ev i hi, getD_get_real (show i < u'.length by rw [lu]; exact hi),
    getD_get_real (show i < v'.length by rw [lv]; exact hi), getD_get_real (by simp [lu, lv, hi]), List.getElem_zipWith]

theorem YieldsM.mul (ha : YieldsM lm lk T a u) (hb : YieldsM lm lk T b v) : YieldsM lm lk T (.mul a b) fun x i => u x i * v x i := fun x hx => by
  obtain ⟨u', hu, lu, eu⟩ := ha x hx
  obtain ⟨v', hv, lv, ev⟩ := hb x hx
  refine ⟨List.zipWith (· * ·) u' v', RunM.mul hu hv (if_pos (lu.trans lv.symm)), by simp [lu, lv], fun i hi => ?_⟩
  show _ = u x i * v x i
  rw [← eu i hi, ← ev i hi, getD_get_real (show i < u'.length by rw [lu]; exact hi),
    getD_get_real (show i < v'.length by rw [lv]; exact hi), getD_get_real (by simp [lu, lv, hi]), List.getElem_zipWith]

theorem YieldsM.scale (c : ℝ) (ha : YieldsM lm lk T a u) : YieldsM lm lk T (.scale c a) fun x i => c * u x i := fun x hx => by
  obtain ⟨u', hu, lu, eu⟩ := ha x hx
  refine ⟨_, RunM.scale c hu, by simp [lu], fun i hi => ?_⟩
  show _ = c * u x i
  rw [← eu i hi, getD_get_real (show i < u'.length by rw [lu]; exact hi), getD_get_real (by simp [lu, hi]), List.getElem_map]

end

end

section
variable (w : World) (m : MId) (T U : Input → Prop)

/-- Calls of the kernel between `i` and `j` at inputs in `T` and `U` return, with entries `F`. -/
def TableK (i j : PId) (F : Input → Input → ℕ → ℕ → ℝ) : Prop :=
  ∃ k, kernelAt w m i j = some k ∧ YieldsK (meanAt w) (kernelAt w) T U k F

/-- Calls of the mean of `i` at inputs in `T` return, with entries `v`. -/
def TableM (i : PId) (v : Input → ℕ → ℝ) : Prop := ∃ a, meanAt w m i = some a ∧ YieldsM (meanAt w) (kernelAt w) T a v

end

section
variable {w : World} {m : MId} {known : List PId} {r p q j : PId} {f : Fn} {T U : Input → Prop} {u v : Input → ℕ → ℝ}
  {F G H J : Input → Input → ℕ → ℕ → ℝ}

theorem TableK.congr {i : PId} (h : TableK w m T U i j F)
    (e : ∀ x y, T x → U y → ∀ i < numElements x, ∀ j < numElements y, F x y i j = G x y i j) : TableK w m T U i j G := by
  obtain ⟨k, hk, h⟩ := h
  exact ⟨k, hk, h.congr e⟩

theorem Placed.sum_mean (h : Placed w m known r (.sum p q)) (hp : TableM w m T p u) (hq : TableM w m T q v) :
    TableM w m T r fun x i => u x i + v x i := by
  obtain ⟨a, ha, hp⟩ := hp
  obtain ⟨b, hb, hq⟩ := hq
  refine ⟨.add a b, ?_, hp.add hq⟩
  rw [h.mean]; simp only [defMean, ha, hb]; rfl

theorem Placed.fmul_mean (h : Placed w m known r (.fmul p f)) (hf : YieldsF (meanAt w) (kernelAt w) T f u) (hp : TableM w m T p v) :
    TableM w m T r fun x i => u x i * v x i := by
  obtain ⟨a, ha, hp⟩ := hp
  refine ⟨.mul (.fn f) a, ?_, (YieldsM.fn hf).mul hp⟩
  rw [h.mean]; simp only [defMean, ha]; rfl

theorem Placed.rem_mean (h : Placed w m known r (.rem p q)) (hp : TableM w m T p u) (hq : TableM w m T q v) :
    TableM w m T r fun x i => -1 * u x i * v x i := by
  obtain ⟨a, ha, hp⟩ := hp
  obtain ⟨b, hb, hq⟩ := hq
  refine ⟨.mul (.scale (-1) a) b, ?_, (hp.scale (-1)).mul hq⟩
  rw [h.mean]; simp only [defMean, ha, hb]; rfl

section
variable (hT : ∀ x, T x → x.IsAtom) (hU : ∀ y, U y → y.IsAtom)
include hT hU

theorem Placed.sum_left (h : Placed w m known r (.sum p q)) (hj : j ∈ known) (hp : TableK w m T U p j F) (hq : TableK w m T U q j G) :
    TableK w m T U r j fun x y a b => F x y a b + G x y a b := by
  obtain ⟨a, ha, hp⟩ := hp
  obtain ⟨b, hb, hq⟩ := hq
  refine ⟨kadd a b, ?_, hp.kadd hT hU hq⟩
  rw [h.left j hj]; simp only [defLeft, ha, hb]; rfl

theorem Placed.sum_right (h : Placed w m known r (.sum p q)) (hj : j ∈ known) (hp : TableK w m T U p j F) (hq : TableK w m T U q j G) :
    TableK w m U T j r fun x y a b => F y x b a + G y x b a := by
  obtain ⟨a, ha, hp⟩ := hp
  obtain ⟨b, hb, hq⟩ := hq
  refine ⟨krev (kadd a b), ?_, (hp.kadd hT hU hq).krev hU hT⟩
  rw [h.right j hj]; simp only [defRight, defLeft, ha, hb]; rfl

theorem Placed.sum_kernel (h : Placed w m known r (.sum p q)) (hp : TableK w m T U p p F) (hq : TableK w m T U q q G)
    (hpq : TableK w m T U p q H) (hqp : TableK w m T U q p J) :
    TableK w m T U r r fun x y a b => F x y a b + G x y a b + H x y a b + J x y a b := by
  obtain ⟨a, ha, hp⟩ := hp
  obtain ⟨b, hb, hq⟩ := hq
  obtain ⟨c, hc, hpq⟩ := hpq
  obtain ⟨d, hd, hqp⟩ := hqp
  refine ⟨kadd (kadd (kadd a b) c) d, ?_, ((hp.kadd hT hU hq).kadd hT hU hpq).kadd hT hU hqp⟩
  rw [h.kernel]; simp only [defKernel, ha, hb, hc, hd]; rfl

theorem Placed.fmul_left (h : Placed w m known r (.fmul p f)) (hf : YieldsF (meanAt w) (kernelAt w) T f u) (hj : j ∈ known)
    (hp : TableK w m T U p j F) : TableK w m T U r j fun x y a b => u x a * F x y a b := by
  obtain ⟨a, ha, hp⟩ := hp
  refine ⟨kmul (.tprod f (.const 1)) a, ?_, (((YieldsK.tprod hT hU hf (.const 1)).kmul hT hU hp)).congr fun x y _ _ i _ j _ => by ring⟩
  rw [h.left j hj]; simp only [defLeft, ha]; rfl

theorem Placed.fmul_right (h : Placed w m known r (.fmul p f)) (hf : YieldsF (meanAt w) (kernelAt w) T f u) (hj : j ∈ known)
    (hp : TableK w m T U p j F) : TableK w m U T j r fun x y a b => u y b * F y x b a := by
  obtain ⟨a, ha, hp⟩ := hp
  refine ⟨krev (kmul (.tprod f (.const 1)) a), ?_,
    (((YieldsK.tprod hT hU hf (.const 1)).kmul hT hU hp).krev hU hT).congr fun x y _ _ i _ j _ => by ring⟩
  rw [h.right j hj]; simp only [defRight, defLeft, ha]; rfl

theorem Placed.fmul_kernel (h : Placed w m known r (.fmul p f)) (hf : YieldsF (meanAt w) (kernelAt w) T f u)
    (hf' : YieldsF (meanAt w) (kernelAt w) U f v) (hp : TableK w m T U p p F) :
    TableK w m T U r r fun x y a b => u x a * v y b * F x y a b := by
  obtain ⟨a, ha, hp⟩ := hp
  refine ⟨kmul (.tprod f f) a, ?_, (YieldsK.tprod hT hU hf hf').kmul hT hU hp⟩
  rw [h.kernel]; simp only [defKernel, ha]; rfl

theorem Placed.rem_left (h : Placed w m known r (.rem p q)) (hj : j ∈ known) : TableK w m T U r j fun _ _ _ _ => 0 :=
  ⟨.zero, h.left j hj, .zero hT hU⟩

theorem Placed.rem_right (h : Placed w m known r (.rem p q)) (hj : j ∈ known) : TableK w m T U j r fun _ _ _ _ => 0 :=
  ⟨.zero, h.right j hj, .zero hT hU⟩

theorem Placed.rem_kernel (h : Placed w m known r (.rem p q)) (hp : TableK w m T U p p F) (hq : TableK w m T U q q G)
    (hpq : TableK w m T U p q H) (hqp : TableK w m T U q p J) :
    TableK w m T U r r fun x y a b => F x y a b * G x y a b + H x y a b * J x y a b := by
  obtain ⟨a, ha, hp⟩ := hp
  obtain ⟨b, hb, hq⟩ := hq
  obtain ⟨c, hc, hpq⟩ := hpq
  obtain ⟨d, hd, hqp⟩ := hqp
  refine ⟨kadd (kmul a b) (kmul c d), ?_, (hp.kmul hT hU hq).kadd hT hU (hpq.kmul hT hU hqp)⟩
  rw [h.kernel]; simp only [defKernel, ha, hb, hc, hd]; rfl

end

end

section
variable {ops before after : List Op} {m : MId} {r p q s : PId} {ord : List MId} {T U : Input → Prop}
  {vp vq : Input → ℕ → ℝ} {Kpp Kpq Kqp Kqq Kps Kqs : Input → Input → ℕ → ℕ → ℝ}

/-- The processes that a product creates. -/
theorem product_placed (e : ops = before ++ .mul p q ord :: after) (hr : r = (runOps before {}).gps.length)
    (hat : Attached (runOps (before ++ [.mul p q ord]) {}) m r) :
    ∃ t1 t2 t3 t4 : PId, Placed (runOps ops {}) m (members (runOps before {}) m) t1 (.fmul q (.meanOf m p)) ∧
      Placed (runOps ops {}) m (members (runOps before {}) m ++ [t1]) t2 (.fmul p (.meanOf m q)) ∧
      Placed (runOps ops {}) m (members (runOps before {}) m ++ [t1, t2]) t3 (.sum t1 t2) ∧
      Placed (runOps ops {}) m (members (runOps before {}) m ++ [t1, t2, t3]) t4 (.rem p q) ∧
      Placed (runOps ops {}) m (members (runOps before {}) m ++ [t1, t2, t3, t4]) r (.sum t3 t4) := by
  subst hr
  let n := (runOps before {}).gps.length
  let b := n + 1 + 4 * ord.idxOf m
  have hw : (Op.mul p q ord).written n m = [(b + 1, .fmul q (.meanOf m p)), (b + 2, .fmul p (.meanOf m q)), (b, .sum (b + 1) (b + 2)),
      (b + 3, .rem p q), (n, .sum b (b + 3))] := rfl
  have h5 := look_written e (older := [(b + 1, .fmul q (.meanOf m p)), (b + 2, .fmul p (.meanOf m q)), (b, .sum (b + 1) (b + 2)),
      (b + 3, .rem p q)]) (younger := []) hw hat
  have h4 := look_written e (older := [(b + 1, .fmul q (.meanOf m p)), (b + 2, .fmul p (.meanOf m q)), (b, .sum (b + 1) (b + 2))])
    (r := b + 3) (d := .rem p q) (younger := [(n, .sum b (b + 3))]) hw (h5.1 _ (by simp))
  have h3 := look_written e (older := [(b + 1, .fmul q (.meanOf m p)), (b + 2, .fmul p (.meanOf m q))])
    (r := b) (d := .sum (b + 1) (b + 2)) (younger := [(b + 3, .rem p q), (n, .sum b (b + 3))]) hw (h5.1 _ (by simp))
  have h2 := look_written e (older := [(b + 1, .fmul q (.meanOf m p))])
    (r := b + 2) (d := .fmul p (.meanOf m q)) (younger := [(b, .sum (b + 1) (b + 2)), (b + 3, .rem p q), (n, .sum b (b + 3))]) hw (h5.1 _ (by simp))
  have h1 := look_written e (older := []) (r := b + 1) (d := .fmul q (.meanOf m p))
    (younger := [(b + 2, .fmul p (.meanOf m q)), (b, .sum (b + 1) (b + 2)), (b + 3, .rem p q), (n, .sum b (b + 3))]) hw (h5.1 _ (by simp))
  refine ⟨b + 1, b + 2, b, b + 3, ?_, h2.2, h3.2, h4.2, h5.2⟩
  simpa using h1.2

/-- The mean of a product. -/
theorem product_mean (e : ops = before ++ .mul p q ord :: after) (hr : r = (runOps before {}).gps.length)
    (hat : Attached (runOps (before ++ [.mul p q ord]) {}) m r)
    (hp : TableM (runOps ops {}) m T p vp) (hq : TableM (runOps ops {}) m T q vq) :
    TableM (runOps ops {}) m T r fun x i => vp x i * vq x i := by
  obtain ⟨t1, t2, t3, t4, h1, h2, h3, h4, h5⟩ := product_placed e hr hat
  have fp : YieldsF (meanAt (runOps ops {})) (kernelAt (runOps ops {})) T (.meanOf m p) vp := by
    obtain ⟨a, ha, hp⟩ := hp; exact .meanOf ha hp
  have fq : YieldsF (meanAt (runOps ops {})) (kernelAt (runOps ops {})) T (.meanOf m q) vq := by
    obtain ⟨a, ha, hq⟩ := hq; exact .meanOf ha hq
  obtain ⟨a, ha, h⟩ := h5.sum_mean (h3.sum_mean (h1.fmul_mean fp hq) (h2.fmul_mean fq hp)) (h4.rem_mean hp hq)
  refine ⟨a, ha, fun x hx => ?_⟩
  obtain ⟨u, hu, l, e⟩ := h x hx
  exact ⟨u, hu, l, fun i hi => (e i hi).trans (by ring)⟩

section
variable (hT : ∀ x, T x → x.IsAtom) (hU : ∀ y, U y → y.IsAtom)
include hT hU

/-- The kernels of a product with an earlier process. -/
theorem product_cross (e : ops = before ++ .mul p q ord :: after) (hr : r = (runOps before {}).gps.length)
    (hat : Attached (runOps (before ++ [.mul p q ord]) {}) m r) (hs : Attached (runOps before {}) m s)
    (hp : TableM (runOps ops {}) m T p vp) (hq : TableM (runOps ops {}) m T q vq)
    (hps : TableK (runOps ops {}) m T U p s Kps) (hqs : TableK (runOps ops {}) m T U q s Kqs) :
    TableK (runOps ops {}) m T U r s (fun x y i j => vp x i * Kqs x y i j + vq x i * Kps x y i j) ∧
    TableK (runOps ops {}) m U T s r (fun y x j i => vp x i * Kqs x y i j + vq x i * Kps x y i j) := by
  obtain ⟨t1, t2, t3, t4, h1, h2, h3, h4, h5⟩ := product_placed e hr hat
  have fp : YieldsF (meanAt (runOps ops {})) (kernelAt (runOps ops {})) T (.meanOf m p) vp := by
    obtain ⟨a, ha, hp⟩ := hp; exact .meanOf ha hp
  have fq : YieldsF (meanAt (runOps ops {})) (kernelAt (runOps ops {})) T (.meanOf m q) vq := by
    obtain ⟨a, ha, hq⟩ := hq; exact .meanOf ha hq
  have hs := mem_members.2 hs
  have k3 := h3.sum_left hT hU (by simp [hs]) (h1.fmul_left hT hU fp hs hqs) (h2.fmul_left hT hU fq (by simp [hs]) hps)
  have k4 := h4.rem_left (j := s) hT hU (by simp [hs])
  exact ⟨(h5.sum_left hT hU (by simp [hs]) k3 k4).congr fun x y _ _ i _ j _ => by ring,
    (h5.sum_right hT hU (by simp [hs]) k3 k4).congr fun x y _ _ i _ j _ => by ring⟩

/-- The kernel of a product. -/
theorem product_kernel (e : ops = before ++ .mul p q ord :: after) (hr : r = (runOps before {}).gps.length)
    (hat : Attached (runOps (before ++ [.mul p q ord]) {}) m r) (hap : Attached (runOps before {}) m p)
    (hp : TableM (runOps ops {}) m T p vp) (hq : TableM (runOps ops {}) m T q vq)
    (hp' : TableM (runOps ops {}) m U p vp) (hq' : TableM (runOps ops {}) m U q vq)
    (hpp : TableK (runOps ops {}) m T U p p Kpp) (hpq : TableK (runOps ops {}) m T U p q Kpq)
    (hqp : TableK (runOps ops {}) m T U q p Kqp) (hqq : TableK (runOps ops {}) m T U q q Kqq)
    (hqp' : TableK (runOps ops {}) m U T q p Kqp) :
    TableK (runOps ops {}) m T U r r fun x y i j => vp x i * vp y j * Kqq x y i j + vq x i * vq y j * Kpp x y i j +
      vp x i * vq y j * Kqp x y i j + vq x i * vp y j * Kqp y x j i + Kpp x y i j * Kqq x y i j + Kpq x y i j * Kqp x y i j := by
  obtain ⟨t1, t2, t3, t4, h1, h2, h3, h4, h5⟩ := product_placed e hr hat
  have f : ∀ {T : Input → Prop} {p : PId} {v : Input → ℕ → ℝ}, TableM (runOps ops {}) m T p v →
      YieldsF (meanAt (runOps ops {})) (kernelAt (runOps ops {})) T (.meanOf m p) v := fun h => by
    obtain ⟨a, ha, hp⟩ := h; exact .meanOf ha hp
  have mp := mem_members.2 hap
  have k11 := h1.fmul_kernel hT hU (f hp) (f hp') hqq
  have k22 := h2.fmul_kernel hT hU (f hq) (f hq') hpp
  have kp1 := h1.fmul_right hU hT (f hp') mp hqp'
  have k21 := h2.fmul_left hT hU (f hq) (by simp) kp1
  have kp1' := h1.fmul_right hT hU (f hp) mp hqp
  have k12 := h2.fmul_right hU hT (f hq') (by simp) kp1'
  have k33 := h3.sum_kernel hT hU k11 k22 k12 k21
  have k44 := h4.rem_kernel hT hU hpp hqq hpq hqp
  have k34 := h4.rem_right (j := t3) hT hU (by simp)
  have k43 := h4.rem_left (j := t3) hT hU (by simp)
  exact (h5.sum_kernel hT hU k33 k44 k34 k43).congr fun x y _ _ i _ j _ => by ring

end

end

end Stheno
