import Verif.BatchSim
import Verif.Calls
import Verif.Props.BatchReturns

/-!
# Programs with batches

C72: running a program with batches of observations is running it at every index of the batch.
-/

namespace Stheno

open Ten

namespace Bat

variable {d s u : List ℕ} {ops : List BOp} {m : MId} {p q : PId} {x y : BInput}

/-- No property. -/
def Keep.any : Keep where
  K _ := True
  M _ := True
  O _ := True
  F _ := True
  T _ := True
  G _ _ := True
  C _ := True
  zero := trivial
  add _ _ := trivial
  mul _ _ := trivial
  scale _ := trivial
  rev _ := trivial
  pre _ _ _ := trivial
  tprod _ := trivial
  adk _ := trivial
  mok _ := trivial
  post _ _ _ _ _ := trivial
  pseudo _ _ _ _ _ _ _ := trivial
  addM _ _ := trivial
  mulM _ _ := trivial
  scaleM _ := trivial
  preM _ _ := trivial
  fn := trivial
  mom _ := trivial
  postM _ _ _ _ _ := trivial
  pseudoM _ _ _ _ _ _ _ _ := trivial
  meanOf := trivial
  diag _ := trivial
  ones _ := trivial
  none := trivial
  toFdd := trivial
  neutral _ := trivial
  cons := trivial

theorem Keep.any_L : ∀ l : BLRule, Keep.any.L l
  | .zero => trivial
  | .const _ => trivial
  | .fn _ => fun _ => trivial
  | .look _ => trivial
  | .lookR _ => trivial
  | .add a b => ⟨any_L a, any_L b⟩
  | .scale _ a => any_L a
  | .tmul _ _ a => ⟨trivial, any_L a⟩
  | .pre _ _ a => ⟨trivial, trivial, any_L a⟩
  | .cross _ _ => trivial

theorem Keep.any_Op (o : BOp) : Keep.any.Op o := by
  cases o <;> first | trivial | exact ⟨trivial, trivial⟩ | exact ⟨trivial, trivial, any_L _⟩

theorem Keep.any_W (w : BWorld) : Keep.any.W w := fun _ _ =>
  ⟨fun _ _ => trivial, fun _ _ => trivial, fun _ _ => trivial, fun _ _ => trivial, fun _ _ => any_L _⟩

/-- The batch dimensions of observations. -/
def BObs.Fits (u : List ℕ) : BObs → Prop
  | .exact _ x noise y => x.Fits u ∧ Ten.Fits noise.shape.tail.tail u ∧ Ten.Fits y.batch u
  | .pseudo _ _ o => o.Fits u

/-- Batch dimensions can be broadcast to `u`. -/
def Keep.fits (u : List ℕ) : Keep where
  K := BKExpr.Fits u
  M := BMExpr.Fits u
  O := BObs.Fits u
  F _ := True
  T _ := True
  G _ _ := True
  C _ := True
  zero := trivial
  add h h' := ⟨h, h'⟩
  mul h h' := ⟨h, h'⟩
  scale h := h
  rev h := h
  pre _ _ h := h
  tprod _ := trivial
  adk h := h
  mok _ := trivial
  post h h1 h2 h3 h4 := ⟨h1, h2, h3, h.1, h4, h.2.1⟩
  pseudo h h1 h2 h3 h4 h5 h6 := ⟨h1, h2, h3, h4, h5, h6, h⟩
  addM h h' := ⟨h, h'⟩
  mulM h h' := ⟨h, h'⟩
  scaleM h := h
  preM _ h := h
  fn := trivial
  mom _ := trivial
  postM h h1 h2 h3 h4 := ⟨h1, h2, h3, h.1, h4, h.2.1, h.2.2⟩
  pseudoM h h1 h2 h3 h4 h5 h6 h7 := ⟨h1, h2, h3, h4, h5, h6, h7, h⟩
  meanOf := trivial
  diag _ := trivial
  ones _ := trivial
  none := trivial
  toFdd := trivial
  neutral _ := trivial
  cons := trivial

/-- The inputs of observations have the batch dimensions `s`, and the batch dimensions of noises and values can be broadcast to `s`. -/
def BObs.Is (s : List ℕ) : BObs → Prop
  | .exact _ x noise y => x.Is s ∧ noise.MatIs s ∧ y.ColIs s
  | .pseudo _ _ o => o.Is s

/-- Batch dimensions are `s`. -/
def Keep.is (s : List ℕ) : Keep where
  K := BKExpr.Is s
  M := BMExpr.Is s
  O := BObs.Is s
  F f := ¬f.IsConst
  T := InTr.Reg
  G f g := ¬(f.IsConst ∧ g.IsConst)
  C ps := ps ≠ []
  zero := trivial
  add h h' := ⟨h, h'⟩
  mul h h' := ⟨h, h'⟩
  scale h := h
  rev h := h
  pre h1 h2 h := ⟨h1, h2, h⟩
  tprod h := h
  adk h := h
  mok h := h
  post h h1 h2 h3 h4 := ⟨h1, h2, h3, h.1, h4, h.2.1⟩
  pseudo h h1 h2 h3 h4 h5 h6 := ⟨h1, h2, h3, h4, h5, h6, h⟩
  addM h h' := ⟨h, h'⟩
  mulM h h' := ⟨h, h'⟩
  scaleM h := h
  preM h1 h := ⟨h1, h⟩
  fn := trivial
  mom h := h
  postM h h1 h2 h3 h4 := ⟨h1, h2, h3, h.1, h4, h.2.1, h.2.2⟩
  pseudoM h h1 h2 h3 h4 h5 h6 h7 := ⟨h1, h2, h3, h4, h5, h6, h7, h⟩
  meanOf := id
  diag h h' := h h'.1
  ones h h' := h h'.1
  none := trivial
  toFdd := trivial
  neutral {t} _ := by cases t <;> trivial
  cons := List.cons_ne_nil _ _

theorem after_at {P : Keep} {o : BOp} (ho : P.Op o) {w : BWorld} (hw : P.W w) : P.W (o.after w) ∧ (o.after w).at' d = (o.at' d).after (w.at' d) := by
  have h := run_at (d := d) ho w hw
  unfold BOp.after Op.after
  cases e : o.run w with
  | ok a w' =>
    rw [e] at h
    rw [h.2.2]
    exact ⟨h.1, rfl⟩
  | error a w' =>
    rw [e] at h
    rw [h.2]
    exact ⟨h.1, rfl⟩

theorem runOps_at {P : Keep} : ∀ {ops : List BOp}, (∀ o ∈ ops, P.Op o) → ∀ {w : BWorld}, P.W w → P.W (runOps ops w) ∧ (runOps ops w).at' d = Stheno.runOps (ops.map (·.at' d)) (w.at' d)
  | [], _, _, hw => ⟨hw, rfl⟩
  | o :: ops, h, w, hw => by
    obtain ⟨h1, h2⟩ := after_at (d := d) (h o List.mem_cons_self) hw
    have := runOps_at (fun o ho => h o (List.mem_cons_of_mem _ ho)) h1
    rw [h2] at this
    exact this

theorem W_empty (P : Keep) : P.W {} := fun _ h => by cases h

/-- **C72.** The state after a program with batches is at every index the state after the program at this index. -/
theorem C72_state (ops : List BOp) (d : List ℕ) : (runOps ops {}).at' d = Stheno.runOps (ops.map (·.at' d)) {} :=
  (runOps_at (fun o _ => Keep.any_Op o) (W_empty _)).2

/-- **C72.** An operation raises an exception if and only if it does so at an index, whichever it is, and it is the same exception. -/
theorem C72_raises (ops : List BOp) (o : BOp) (d : List ℕ) : o.raises (runOps ops {}) = (o.at' d).raises (Stheno.runOps (ops.map (·.at' d)) {}) := by
  have h := run_at (d := d) (Keep.any_Op o) (runOps ops {}) (Keep.any_W _)
  rw [C72_state] at h
  unfold BOp.raises Op.raises
  cases e : o.run (runOps ops {}) with
  | ok a w' =>
    rw [e] at h
    rw [h.2.2]
  | error a w' =>
    rw [e] at h
    rw [h.2]

theorem kernelAt_at {P : Keep} {w : BWorld} (hw : P.W w) (d : List ℕ) (m : MId) (p q : PId) :
    Stheno.kernelAt (w.at' d) m p q = (kernelAt w m p q).map (·.at' d) ∧ ∀ k, kernelAt w m p q = some k → P.K k := by
  have h := getK_at (d := d) m p q w hw
  unfold kernelAt Stheno.kernelAt
  cases e : getK m p q w with
  | ok a w' =>
    rw [e] at h
    rw [h.2.2]
    exact ⟨rfl, fun k hk => by cases hk; exact h.2.1⟩
  | error a w' =>
    rw [e] at h
    rw [h.2]
    exact ⟨rfl, fun k hk => by cases hk⟩

theorem meanAt_at {P : Keep} {w : BWorld} (hw : P.W w) (d : List ℕ) (m : MId) (p : PId) :
    Stheno.meanAt (w.at' d) m p = (meanAt w m p).map (·.at' d) ∧ ∀ a, meanAt w m p = some a → P.M a := by
  have h := getM_at (d := d) m p w hw
  unfold meanAt Stheno.meanAt
  cases e : getM m p w with
  | ok a w' =>
    rw [e] at h
    rw [h.2.2]
    exact ⟨rfl, fun k hk => by cases hk; exact h.2.1⟩
  | error a w' =>
    rw [e] at h
    rw [h.2]
    exact ⟨rfl, fun k hk => by cases hk⟩

/-- **C72.** The means and kernels that lookups return are at every index those at this index. -/
theorem C72_lookup (ops : List BOp) (d : List ℕ) (m : MId) (p q : PId) :
    Stheno.meanAt (Stheno.runOps (ops.map (·.at' d)) {}) m p = (meanAt (runOps ops {}) m p).map (·.at' d) ∧
      Stheno.kernelAt (Stheno.runOps (ops.map (·.at' d)) {}) m p q = (kernelAt (runOps ops {}) m p q).map (·.at' d) := by
  rw [← C72_state]
  exact ⟨(meanAt_at (Keep.any_W _) d m p).1, (kernelAt_at (Keep.any_W _) d m p q).1⟩

theorem lmAt_run (ops : List BOp) (d : List ℕ) : lmAt (meanAt (runOps ops {})) d = Stheno.meanAt (Stheno.runOps (ops.map (·.at' d)) {}) :=
  funext fun m => funext fun p => (C72_lookup ops d m p p).1.symm

theorem lkAt_run (ops : List BOp) (d : List ℕ) : lkAt (kernelAt (runOps ops {})) d = Stheno.kernelAt (Stheno.runOps (ops.map (·.at' d)) {}) :=
  funext fun m => funext fun p => funext fun q => (C72_lookup ops d m p q).2.symm

/-! ### Calls -/

section
variable (h : ∀ o ∈ ops, (Keep.fits u).Op o)
include h

theorem fitsW : (Keep.fits u).W (runOps ops {}) := (runOps_at (d := []) h (W_empty _)).1

/-- **C72.** If a mean at a batch of inputs returns an array, then the means at all indices return, and the array consists of what they return. -/
theorem C72_mean {t : Ten ℝ} (hx : x.Fits u) (e : MeanCall (runOps ops {}) m p x t) :
    ∃ r b, t.shape = 1 :: r :: b ∧ Ten.Fits b u ∧ ∀ d, In d u →
      ∃ v, Stheno.MeanCall (Stheno.runOps (ops.map (·.at' d)) {}) m p (x.at' d) v ∧ v.length = r ∧ ∀ i < r, v[i]? = some (t.get (0 :: i :: d)) := by
  obtain ⟨a, n, ha, e⟩ := e
  have hm : ∀ m p a, meanAt (runOps ops {}) m p = some a → a.Fits u := fun m p => (meanAt_at (fitsW h) [] m p).2
  have hk : ∀ m p q k, kernelAt (runOps ops {}) m p q = some k → k.Fits u := fun m p q => (kernelAt_at (fitsW h) [] m p q).2
  obtain ⟨r, b, h1, h2, h3⟩ := C71_mean hm hk n (hm _ _ _ ha) hx e
  refine ⟨r, b, h1, h2, fun d hd => ?_⟩
  obtain ⟨v, v1, v2⟩ := h3 d hd
  rw [lmAt_run, lkAt_run] at v1
  exact ⟨v, ⟨a.at' d, n, by rw [(C72_lookup ops d m p p).1, ha]; rfl, v1⟩, v2⟩

/-- **C72.** The same for kernels. -/
theorem C72_kernel {t : Ten ℝ} (hx : x.Fits u) (hy : y.Fits u) (e : KernelCall (runOps ops {}) m p q x y t) :
    ∃ r c b, t.shape = c :: r :: b ∧ Ten.Fits b u ∧ ∀ d, In d u →
      ∃ A, Stheno.KernelCall (Stheno.runOps (ops.map (·.at' d)) {}) m p q (x.at' d) (y.at' d) A ∧ A.r = r ∧ A.c = c ∧ ∀ i < r, ∀ j < c, A.e i j = t.get (j :: i :: d) := by
  obtain ⟨k, n, ha, e⟩ := e
  have hm : ∀ m p a, meanAt (runOps ops {}) m p = some a → a.Fits u := fun m p => (meanAt_at (fitsW h) [] m p).2
  have hk : ∀ m p q k, kernelAt (runOps ops {}) m p q = some k → k.Fits u := fun m p q => (kernelAt_at (fitsW h) [] m p q).2
  obtain ⟨r, c, b, h1, h2, h3⟩ := C71_pairwise hm hk n (hk _ _ _ _ ha) hx hy e
  refine ⟨r, c, b, h1, h2, fun d hd => ?_⟩
  obtain ⟨v, v1, v2⟩ := h3 d hd
  rw [lmAt_run, lkAt_run] at v1
  exact ⟨v, ⟨k.at' d, n, by rw [(C72_lookup ops d m p q).2, ha]; rfl, v1⟩, v2⟩

/-- **C72.** The same for `elwise`. -/
theorem C72_elwise {t : Ten ℝ} (hx : x.Fits u) (hy : y.Fits u) (e : ElwiseCall (runOps ops {}) m p q x y t) :
    ∃ r b, t.shape = 1 :: r :: b ∧ Ten.Fits b u ∧ ∀ d, In d u →
      ∃ v, Stheno.ElwiseCall (Stheno.runOps (ops.map (·.at' d)) {}) m p q (x.at' d) (y.at' d) v ∧ v.length = r ∧ ∀ i < r, v[i]? = some (t.get (0 :: i :: d)) := by
  obtain ⟨k, n, ha, e⟩ := e
  have hm : ∀ m p a, meanAt (runOps ops {}) m p = some a → a.Fits u := fun m p => (meanAt_at (fitsW h) [] m p).2
  have hk : ∀ m p q k, kernelAt (runOps ops {}) m p q = some k → k.Fits u := fun m p q => (kernelAt_at (fitsW h) [] m p q).2
  obtain ⟨r, b, h1, h2, h3⟩ := C71_elwise hm hk n (hk _ _ _ _ ha) hx hy e
  refine ⟨r, b, h1, h2, fun d hd => ?_⟩
  obtain ⟨v, v1, v2⟩ := h3 d hd
  rw [lmAt_run, lkAt_run] at v1
  exact ⟨v, ⟨k.at' d, n, by rw [(C72_lookup ops d m p q).2, ha]; rfl, v1⟩, v2⟩

end

/-- A bound for all indices of a batch. -/
theorem bound_in : ∀ {s : List ℕ} {R : List ℕ → ℕ → Prop}, (∀ d n n', n ≤ n' → R d n → R d n') → (∀ d, In d s → ∃ n, R d n) → ∃ n, ∀ d, In d s → R d n
  | [], R, _, h => by
    obtain ⟨n, hn⟩ := h [] .nil
    exact ⟨n, fun d hd => by cases hd; exact hn⟩
  | a :: s, R, hR, h => by
    have : ∀ k ≤ a, ∃ n, ∀ i < k, ∀ d, In d s → R (i :: d) n := by
      intro k
      induction k with
      | zero => exact fun _ => ⟨0, fun i hi => by omega⟩
      | succ k ih =>
        intro hk
        obtain ⟨n, hn⟩ := ih (by omega)
        obtain ⟨n', hn'⟩ := bound_in (s := s) (R := fun d n => R (k :: d) n) (fun d => hR (k :: d)) fun d hd => h (k :: d) (.cons hk hd)
        refine ⟨max n n', fun i hi d hd => ?_⟩
        rcases Nat.lt_succ_iff_lt_or_eq.1 hi with hi | rfl
        · exact hR _ _ _ (le_max_left _ _) (hn i hi d hd)
        · exact hR _ _ _ (le_max_right _ _) (hn' d hd)
    obtain ⟨n, hn⟩ := this a le_rfl
    exact ⟨n, fun d hd => by cases hd with | cons hi hd => exact hn _ hi _ hd⟩

section
variable (hs : ∃ d, In d s) (h : ∀ o ∈ ops, (Keep.is s).Op o)
include hs h

omit hs in
theorem isW : (Keep.is s).W (runOps ops {}) := (runOps_at (d := []) h (W_empty _)).1

/-- **C72.** If the inputs of all observations and `x` have the batch dimensions `s`, then a mean at `x` returns if it returns at all indices. The result has the batch
dimensions `s`. -/
theorem C72_mean_returns (hx : x.Is s) (e : ∀ d, In d s → ∃ v, Stheno.MeanCall (Stheno.runOps (ops.map (·.at' d)) {}) m p (x.at' d) v) :
    ∃ t r, MeanCall (runOps ops {}) m p x t ∧ t.shape = 1 :: r :: s ∧ ∀ d, In d s →
      ∃ v, Stheno.MeanCall (Stheno.runOps (ops.map (·.at' d)) {}) m p (x.at' d) v ∧ v.length = r ∧ ∀ i < r, v[i]? = some (t.e (0 :: i :: d)) := by
  have hm : ∀ m p a, meanAt (runOps ops {}) m p = some a → a.Is s := fun m p => (meanAt_at (isW h) [] m p).2
  have hk : ∀ m p q k, kernelAt (runOps ops {}) m p q = some k → k.Is s := fun m p q => (kernelAt_at (isW h) [] m p q).2
  obtain ⟨d0, h0⟩ := hs
  obtain ⟨v0, a0, n0, e0, -⟩ := e d0 h0
  rw [(C72_lookup ops d0 m p p).1] at e0
  obtain ⟨a, ha, -⟩ := Option.map_eq_some_iff.1 e0
  obtain ⟨n, hn⟩ := bound_in (s := s) (R := fun d n => ∃ v, (ev (lmAt (meanAt (runOps ops {})) d) (lkAt (kernelAt (runOps ops {})) d) n).M (a.at' d) (x.at' d) = some v)
    (fun d n n' hn ⟨v, hv⟩ => ⟨v, (ev_le hn).M _ _ _ hv⟩) fun d hd => by
      obtain ⟨v, a', n, h1, h2⟩ := e d hd
      rw [(C72_lookup ops d m p p).1, ha] at h1
      cases h1
      exact ⟨n, v, by rw [lmAt_run, lkAt_run]; exact h2⟩
  obtain ⟨t, r, h1, h2, h3⟩ := C71_mean_returns ⟨d0, h0⟩ hm hk n (hm _ _ _ ha) hx hn
  refine ⟨t, r, ⟨a, n, ha, h1⟩, h2, fun d hd => ?_⟩
  obtain ⟨v, v1, v2⟩ := h3 d hd
  rw [lmAt_run, lkAt_run] at v1
  exact ⟨v, ⟨a.at' d, n, by rw [(C72_lookup ops d m p p).1, ha]; rfl, v1⟩, v2⟩

/-- **C72.** The same for kernels. -/
theorem C72_kernel_returns (hx : x.Is s) (hy : y.Is s)
    (e : ∀ d, In d s → ∃ A, Stheno.KernelCall (Stheno.runOps (ops.map (·.at' d)) {}) m p q (x.at' d) (y.at' d) A) :
    ∃ t r c, KernelCall (runOps ops {}) m p q x y t ∧ t.shape = c :: r :: s ∧ ∀ d, In d s →
      ∃ A, Stheno.KernelCall (Stheno.runOps (ops.map (·.at' d)) {}) m p q (x.at' d) (y.at' d) A ∧ A.r = r ∧ A.c = c ∧ ∀ i < r, ∀ j < c, t.e (j :: i :: d) = A.e i j := by
  have hm : ∀ m p a, meanAt (runOps ops {}) m p = some a → a.Is s := fun m p => (meanAt_at (isW h) [] m p).2
  have hk : ∀ m p q k, kernelAt (runOps ops {}) m p q = some k → k.Is s := fun m p q => (kernelAt_at (isW h) [] m p q).2
  obtain ⟨d0, h0⟩ := hs
  obtain ⟨v0, a0, n0, e0, -⟩ := e d0 h0
  rw [(C72_lookup ops d0 m p q).2] at e0
  obtain ⟨a, ha, -⟩ := Option.map_eq_some_iff.1 e0
  obtain ⟨n, hn⟩ := bound_in (s := s) (R := fun d n => ∃ v, (ev (lmAt (meanAt (runOps ops {})) d) (lkAt (kernelAt (runOps ops {})) d) n).K (a.at' d) (x.at' d) (y.at' d) = some v)
    (fun d n n' hn ⟨v, hv⟩ => ⟨v, (ev_le hn).K _ _ _ _ hv⟩) fun d hd => by
      obtain ⟨v, a', n, h1, h2⟩ := e d hd
      rw [(C72_lookup ops d m p q).2, ha] at h1
      cases h1
      exact ⟨n, v, by rw [lmAt_run, lkAt_run]; exact h2⟩
  obtain ⟨t, r, c, h1, h2, h3⟩ := C71_pairwise_returns ⟨d0, h0⟩ hm hk n (hk _ _ _ _ ha) hx hy hn
  refine ⟨t, r, c, ⟨a, n, ha, h1⟩, h2, fun d hd => ?_⟩
  obtain ⟨v, v1, v2⟩ := h3 d hd
  rw [lmAt_run, lkAt_run] at v1
  exact ⟨v, ⟨a.at' d, n, by rw [(C72_lookup ops d m p q).2, ha]; rfl, v1⟩, v2⟩

/-- **C72.** The same for `elwise`. -/
theorem C72_elwise_returns (hx : x.Is s) (hy : y.Is s)
    (e : ∀ d, In d s → ∃ v, Stheno.ElwiseCall (Stheno.runOps (ops.map (·.at' d)) {}) m p q (x.at' d) (y.at' d) v) :
    ∃ t r, ElwiseCall (runOps ops {}) m p q x y t ∧ t.shape = 1 :: r :: s ∧ ∀ d, In d s →
      ∃ v, Stheno.ElwiseCall (Stheno.runOps (ops.map (·.at' d)) {}) m p q (x.at' d) (y.at' d) v ∧ v.length = r ∧ ∀ i < r, v[i]? = some (t.e (0 :: i :: d)) := by
  have hm : ∀ m p a, meanAt (runOps ops {}) m p = some a → a.Is s := fun m p => (meanAt_at (isW h) [] m p).2
  have hk : ∀ m p q k, kernelAt (runOps ops {}) m p q = some k → k.Is s := fun m p q => (kernelAt_at (isW h) [] m p q).2
  obtain ⟨d0, h0⟩ := hs
  obtain ⟨v0, a0, n0, e0, -⟩ := e d0 h0
  rw [(C72_lookup ops d0 m p q).2] at e0
  obtain ⟨a, ha, -⟩ := Option.map_eq_some_iff.1 e0
  obtain ⟨n, hn⟩ := bound_in (s := s) (R := fun d n => ∃ v, (ev (lmAt (meanAt (runOps ops {})) d) (lkAt (kernelAt (runOps ops {})) d) n).D (a.at' d) (x.at' d) (y.at' d) = some v)
    (fun d n n' hn ⟨v, hv⟩ => ⟨v, (ev_le hn).D _ _ _ _ hv⟩) fun d hd => by
      obtain ⟨v, a', n, h1, h2⟩ := e d hd
      rw [(C72_lookup ops d m p q).2, ha] at h1
      cases h1
      exact ⟨n, v, by rw [lmAt_run, lkAt_run]; exact h2⟩
  obtain ⟨t, r, h1, h2, h3⟩ := C71_elwise_returns ⟨d0, h0⟩ hm hk n (hk _ _ _ _ ha) hx hy hn
  refine ⟨t, r, ⟨a, n, ha, h1⟩, h2, fun d hd => ?_⟩
  obtain ⟨v, v1, v2⟩ := h3 d hd
  rw [lmAt_run, lkAt_run] at v1
  exact ⟨v, ⟨a.at' d, n, by rw [(C72_lookup ops d m p q).2, ha]; rfl, v1⟩, v2⟩

end

end Bat

/-! ### An example -/

namespace Bat.Example
open BatchExample

/-- A process, and its posterior given a batch of observations. -/
def ops : List BOp := [.newMeasure, .gp (.fn (.const 3)) (.prim k) (some 0) (some "f"), .condition 0 (.exact 0 z noise y), .pre 0 (.shift (.scalar 2))]

/-- The posterior mean of the process. -/
def post : BMExpr := .post (.fn (.const 3)) (.fn (.const 3)) (.prim k) z (.prim k) noise y

theorem looks : meanAt (runOps ops {}) 1 0 = some post ∧ kernelAt (runOps ops {}) 1 0 0 = some kernel ∧ meanAt (runOps ops {}) 1 1 = some (.pre (.shift (.scalar 2)) post) :=
  ⟨rfl, rfl, rfl⟩

theorem is : ∀ o ∈ ops, (Keep.is [2]).Op o := by
  intro o ho
  simp only [ops, List.mem_cons, List.not_mem_nil, or_false] at ho
  rcases ho with rfl | rfl | rfl | rfl
  · trivial
  · exact ⟨trivial, trivial⟩
  · exact ⟨z_is, noise_is, rfl, rfl⟩
  · trivial

theorem fits : ∀ o ∈ ops, (Keep.fits [2]).Op o := by
  intro o ho
  simp only [ops, List.mem_cons, List.not_mem_nil, or_false] at ho
  rcases ho with rfl | rfl | rfl | rfl
  · trivial
  · exact ⟨trivial, trivial⟩
  · exact ⟨z_is.fits, noise_is.fits, rfl⟩
  · trivial

theorem mean_at (d : List ℕ) : ∃ v, Stheno.MeanCall (Stheno.runOps (ops.map (·.at' d)) {}) 1 0 (x.at' d) v := by
  obtain ⟨K, K1, K2, K3⟩ := kz (Stheno.meanAt (Stheno.runOps (ops.map (·.at' d)) {})) (Stheno.kernelAt (Stheno.runOps (ops.map (·.at' d)) {})) d
  obtain ⟨Kr, Kc, Ke⟩ := K
  simp only at K2
  subst K2
  have h : ∃ v, (ev (Stheno.meanAt (Stheno.runOps (ops.map (·.at' d)) {})) (Stheno.kernelAt (Stheno.runOps (ops.map (·.at' d)) {})) 2).M (post.at' d) (x.at' d) = some v := by
    obtain ⟨a, ea⟩ := z_at d
    obtain ⟨b1, b2, b3, eb⟩ := x_at d
    rw [ea] at K1
    refine Option.isSome_iff_exists.1 ?_
    simp only [post, BMExpr.at', BKExpr.at', ea, eb, ev, step, stepM, Option.bind_eq_bind]
    simp only [ev, step] at K1
    rw [K1]
    rfl
  obtain ⟨v, hv⟩ := h
  exact ⟨v, post.at' d, 2, by rw [(C72_lookup ops d 1 0 0).1, looks.1]; rfl, hv⟩

/-- The posterior mean at a batch of inputs consists of the posterior means of both models. -/
example : ∃ t r, MeanCall (runOps ops {}) 1 0 x t ∧ t.shape = [1, r, 2] ∧ ∀ d, In d [2] →
    ∃ v, Stheno.MeanCall (Stheno.runOps (ops.map (·.at' d)) {}) 1 0 (x.at' d) v ∧ v.length = r ∧ ∀ i < r, v[i]? = some (t.e (0 :: i :: d)) :=
  C72_mean_returns batch is x_is fun d _ => mean_at d

/-- The prior kernel at a batch of inputs, both ways. -/
example : (∃ t r c, KernelCall (runOps ops {}) 0 0 0 x z t ∧ t.shape = [c, r, 2]) ∧ ∃ t r, ElwiseCall (runOps ops {}) 0 0 0 x x t ∧ t.shape = [1, r, 2] := by
  have e : ∀ d, Stheno.kernelAt (Stheno.runOps (ops.map (·.at' d)) {}) 0 0 0 = some (.prim k) := fun d => by
    rw [(C72_lookup ops d 0 0 0).2]
    rfl
  constructor
  · obtain ⟨t, r, c, h1, h2, -⟩ := C72_kernel_returns batch is (m := 0) (p := 0) (q := 0) x_is z_is fun d _ => ⟨_, .prim k, 1, e d, rfl⟩
    exact ⟨t, r, c, h1, h2⟩
  · obtain ⟨t, r, h1, h2, -⟩ := C72_elwise_returns batch is (m := 0) (p := 0) (q := 0) x_is x_is fun d _ => ⟨_, .prim k, 1, e d, rfl⟩
    exact ⟨t, r, h1, h2⟩

/-- Broadcasting: inputs without batch dimensions and a posterior given a batch of observations. -/
example {t : Ten ℝ} (e : MeanCall (runOps ops {}) 1 0 (.num ⟨[1, 4], fun i => i.tail.headD 0⟩) t) : ∃ r b, t.shape = 1 :: r :: b ∧ Ten.Fits b [2] :=
  let ⟨r, b, h1, h2, _⟩ := C72_mean fits (x := .num ⟨[1, 4], fun i => i.tail.headD 0⟩) rfl e
  ⟨r, b, h1, h2⟩

/-- Naming another process `f` raises, in batches as in every model. -/
example : (BOp.name 0 1 "f").raises (runOps ops {}) = some .runtime ∧ ∀ d, (Op.name 0 1 "f").raises (Stheno.runOps (ops.map (·.at' d)) {}) = some .runtime := by
  have : (BOp.name 0 1 "f").raises (runOps ops {}) = some .runtime := rfl
  exact ⟨this, fun d => by rw [← this, C72_raises ops (.name 0 1 "f") d]; rfl⟩

end Bat.Example

end Stheno
