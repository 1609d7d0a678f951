import Verif.SoundPost

/-!
# Soundness: means and kernels are expectations and covariances
-/

namespace Stheno

set_option linter.unusedSectionVars false

variable {V : Type} [AddCommGroup V] [Module ℝ V] {I : Interp V}

section Def
variable {lm : MId → PId → Option MExpr} {lk : MId → PId → PId → Option KExpr} {n : ℕ} {m : MId}
  {known : List PId} {res : PId} {lm' : PId → Option MExpr} {lk' : PId → PId → Option KExpr}

/-- The law of derivatives. -/
theorem Interp.isDiff {p : PId} {d : ℕ} (hd : I.DefLaw lm lk m known res (.diff p d)) :
    IsDiff (I.S m) d (fun x => (I.der (I.F m p) d x).isSome) (I.F m res) (I.F m p) (pointOf (I.F m p))
      fun x => (I.der (I.F m p) d x).getD 0 :=
  IsDiff.rows hd.1 hd.2.1 fun x w h => ⟨(RF.der_some h).1, hd.2.2 x w h⟩

/-- The mean of a definition. -/
theorem defMean_sound (ok : ∀ m p, (I.F m p).OK) (oneE : (I.S m).E I.one = 1)
    (hmlow : ∀ n' < n, ∀ (m : MId) p a, lm m p = some a → SM lm lk n' a (expect (I.S m) (I.F m p)))
    (hm : ∀ p a, lm' p = some a → SM lm lk n a (expect (I.S m) (I.F m p)))
    {d : ProcDef} (hd : I.DefLaw lm lk m known res d) {a : MExpr} (h : defMean m lm' d = some a) :
    SM lm lk n a (expect (I.S m) (I.F m res)) := by
  cases d with
  | indep mean k => cases h; exact hd.1 n
  | custom mean k l => cases h; exact hd.1 n
  | addFn p f =>
    obtain ⟨b, hb, h⟩ := bind_some h
    cases h
    exact SM.addFn ok oneE (ok _ _) (ok _ _) hmlow hd (hm p b hb)
  | sum p q =>
    obtain ⟨b, hb, h⟩ := bind_some h
    obtain ⟨c, hc, h⟩ := bind_some h
    cases h
    exact SM.sum (ok _ _) (ok _ _) (ok _ _) hd (hm p b hb) (hm q c hc)
  | scale p c =>
    obtain ⟨b, hb, h⟩ := bind_some h
    cases h
    exact SM.scale (ok _ _) (ok _ _) hd (hm p b hb)
  | fmul p f =>
    obtain ⟨b, hb, h⟩ := bind_some h
    cases h
    exact SM.fmul ok (ok _ _) (ok _ _) hmlow hd (hm p b hb)
  | pre p t =>
    obtain ⟨b, hb, h⟩ := bind_some h
    cases h
    exact SM.pre hd (hm p b hb)
  | diff p d =>
    obtain ⟨b, hb, h⟩ := bind_some h
    cases h
    have hd := Interp.isDiff hd
    exact SM.diff hd (hm p b hb)
  | cross ps =>
    cases h
    exact SM.mom (ok _ _) (fun q => ok m q) hd fun n' hn p a => hmlow n' hn m p a
  | copy p =>
    have hd : I.F m res = I.F m p := hd
    rw [hd]
    exact hm p a h
  | rem p q =>
    obtain ⟨b, hb, h⟩ := bind_some h
    obtain ⟨c, hc, h⟩ := bind_some h
    cases h
    exact SM.rem (ok _ _) (ok _ _) (ok _ _) hd.1 (hm p b hb) (hm q c hc)

/-- The kernel of a definition. -/
theorem defKernel_sound (ok : ∀ m p, (I.F m p).OK) (oneC : ∀ v, (I.S m).C I.one v = 0)
    (hmlow : ∀ n' < n, ∀ (m : MId) p a, lm m p = some a → SM lm lk n' a (expect (I.S m) (I.F m p)))
    (hklow : ∀ n' < n, ∀ (m : MId) p q k, lk m p q = some k → SK lm lk n' k (cov (I.S m) (I.F m p) (I.F m q)))
    (hk : ∀ p q k, lk' p q = some k → AK lm lk n k (cov (I.S m) (I.F m p) (I.F m q)))
    {d : ProcDef} (hd : I.DefLaw lm lk m known res d) {k : KExpr} (h : defKernel m lk' d = some k) :
    AK lm lk n k (cov (I.S m) (I.F m res) (I.F m res)) := by
  cases d with
  | indep mean k => cases h; exact hd.2.1 n
  | custom mean k l => cases h; exact hd.2.1 n
  | addFn p f => exact AK.addFn oneC hd (hk p p k h)
  | sum p q =>
    obtain ⟨k1, h1, h⟩ := bind_some h
    obtain ⟨k2, h2, h⟩ := bind_some h
    obtain ⟨k12, h12, h⟩ := bind_some h
    obtain ⟨k21, h21, h⟩ := bind_some h
    cases h
    exact AK.sum hd (hk _ _ _ h1) (hk _ _ _ h2) (hk _ _ _ h12) (hk _ _ _ h21)
  | scale p c =>
    obtain ⟨b, hb, h⟩ := bind_some h
    cases h
    exact AK.scale (ok _ _) hd (hk _ _ _ hb)
  | fmul p f =>
    obtain ⟨b, hb, h⟩ := bind_some h
    cases h
    exact AK.fmul hmlow (ok _ _) hd (hk _ _ _ hb)
  | pre p t =>
    obtain ⟨b, hb, h⟩ := bind_some h
    cases h
    exact AK.pre (ok _ _) hd (hk _ _ _ hb)
  | diff p d =>
    obtain ⟨b, hb, h⟩ := bind_some h
    cases h
    have hd := Interp.isDiff hd
    exact AK.diff (ok _ _) hd (hk _ _ _ hb)
  | cross ps =>
    cases h
    exact AK.mok (ok _ _) (fun q => ok m q) hd fun n' hn p q k => hklow n' hn m p q k
  | copy p =>
    have hd : I.F m res = I.F m p := hd
    rw [hd]
    exact hk p p k h
  | rem p q =>
    obtain ⟨k1, h1, h⟩ := bind_some h
    obtain ⟨k2, h2, h⟩ := bind_some h
    obtain ⟨k12, h12, h⟩ := bind_some h
    obtain ⟨k21, h21, h⟩ := bind_some h
    cases h
    refine AK.rem (fun x rs hx hr => ?_) hd.2.1 (ok _ _) (hk _ _ _ h1) (hk _ _ _ h2) (hk _ _ _ h12) (hk _ _ _ h21)
    obtain ⟨vs, ws, a, b, c, d, _⟩ := hd.1 x rs hx hr
    exact ⟨vs, ws, a, b, c, d⟩

/-- The covariance of a definition with an earlier process. -/
theorem defLeft_sound (ok : ∀ m p, (I.F m p).OK) (oneC : ∀ v, (I.S m).C I.one v = 0)
    (hmlow : ∀ n' < n, ∀ (m : MId) p a, lm m p = some a → SM lm lk n' a (expect (I.S m) (I.F m p)))
    (hklow : ∀ n' < n, ∀ (m : MId) p q k, lk m p q = some k → SK lm lk n' k (cov (I.S m) (I.F m p) (I.F m q)))
    (hk : ∀ p q k, lk' p q = some k → AK lm lk n k (cov (I.S m) (I.F m p) (I.F m q)))
    (hle : ∀ i j, OLe (lk' i j) (lk m i j))
    {d : ProcDef} (hd : I.DefLaw lm lk m known res d) {j : PId} (hj : j ∈ known) {k : KExpr}
    (h : defLeft m lk' j d = some k) : AK lm lk n k (cov (I.S m) (I.F m res) (I.F m j)) := by
  cases d with
  | indep mean k => cases h; exact AK.orth (ok _ _) (ok _ _) (hd.2.2 j hj)
  | rem p q => cases h; exact AK.orth (ok _ _) (ok _ _) (hd.2.2 j hj)
  | custom mean k' l => exact hd.2.2 j hj k (runL_mono hle j l k h) n
  | addFn p f => exact AK.addFnLeft oneC hd (hk p j k h)
  | sum p q =>
    obtain ⟨k1, h1, h⟩ := bind_some h
    obtain ⟨k2, h2, h⟩ := bind_some h
    cases h
    exact AK.sumLeft hd (hk _ _ _ h1) (hk _ _ _ h2)
  | scale p c =>
    obtain ⟨b, hb, h⟩ := bind_some h
    cases h
    exact AK.scaleLeft (ok _ _) (ok _ _) hd (hk _ _ _ hb)
  | fmul p f =>
    obtain ⟨b, hb, h⟩ := bind_some h
    cases h
    exact AK.fmulLeft hmlow (ok _ _) (ok _ _) hd (hk _ _ _ hb)
  | pre p t =>
    obtain ⟨b, hb, h⟩ := bind_some h
    cases h
    exact AK.preLeft (ok _ _) (ok _ _) hd (hk _ _ _ hb)
  | diff p d =>
    obtain ⟨b, hb, h⟩ := bind_some h
    cases h
    have hd := Interp.isDiff hd
    exact AK.diffLeft (ok _ _) (ok _ _) hd (hk _ _ _ hb)
  | cross ps =>
    cases h
    exact AK.crossLeft (ok _ _) (fun q => ok m q) hd (fun n' hn p q k => hklow n' hn m p q k) j
  | copy p =>
    have hd : I.F m res = I.F m p := hd
    rw [hd]
    exact hk p j k h

/-- The covariance of an earlier process with a definition. -/
theorem defRight_sound (ok : ∀ m p, (I.F m p).OK) (oneC : ∀ v, (I.S m).C I.one v = 0)
    (hmlow : ∀ n' < n, ∀ (m : MId) p a, lm m p = some a → SM lm lk n' a (expect (I.S m) (I.F m p)))
    (hklow : ∀ n' < n, ∀ (m : MId) p q k, lk m p q = some k → SK lm lk n' k (cov (I.S m) (I.F m p) (I.F m q)))
    (hk : ∀ p q k, lk' p q = some k → AK lm lk n k (cov (I.S m) (I.F m p) (I.F m q)))
    (hle : ∀ i j, OLe (lk' i j) (lk m i j))
    {d : ProcDef} (hd : I.DefLaw lm lk m known res d) {i : PId} (hi : i ∈ known) {k : KExpr}
    (h : defRight m lk' i d = some k) : AK lm lk n k (cov (I.S m) (I.F m i) (I.F m res)) := by
  have rev : ∀ {b}, defLeft m lk' i d = some b → AK lm lk n (krev b) (cov (I.S m) (I.F m i) (I.F m res)) :=
    fun hb => (defLeft_sound ok oneC hmlow hklow hk hle hd hi hb).revCov (ok _ _) (ok _ _)
  cases d with
  | indep mean k => cases h; exact AK.orth (ok _ _) (ok _ _) (hd.2.2 i hi).symm
  | rem p q => cases h; exact AK.orth (ok _ _) (ok _ _) (hd.2.2 i hi).symm
  | copy p =>
    have hd : I.F m res = I.F m p := hd
    rw [hd]
    exact hk i p k h
  | _ =>
    obtain ⟨b, hb, h⟩ := bind_some h
    cases h
    exact rev hb

end Def

section Main
variable {L : AWorld}

/-- What soundness says about measure `m` at recursion depth `n`. -/
def SoundAt (I : Interp V) (L : AWorld) (n : ℕ) (m : MId) : Prop :=
  (∀ p a, L.mean m p = some a → SM L.mean L.kernel n a (expect (I.S m) (I.F m p))) ∧
  ∀ p q k, L.kernel m p q = some k → SK L.mean L.kernel n k (cov (I.S m) (I.F m p) (I.F m q))

/-- Base processes. -/
theorem base_sound (h : I.Laws L) {n : ℕ} {m : MId} {a : AMeas} (ha : L.ms[m]? = some a)
    (ih : ∀ u, a.base = some u → SoundAt I L n u.prior) :
    (∀ i ∈ a.basePs, ∀ b, L.baseM a i = some b → SM L.mean L.kernel n b (expect (I.S m) (I.F m i))) ∧
    ∀ i ∈ a.basePs, ∀ j ∈ a.basePs, ∀ k, L.baseK a i j = some k →
      AK L.mean L.kernel n k (cov (I.S m) (I.F m i) (I.F m j)) := by
  cases hb : a.base with
  | none =>
    refine ⟨fun i _ b hm => ?_, fun i _ j _ k hk => ?_⟩
    · simp [AWorld.baseM, hb] at hm
    · simp [AWorld.baseK, hb] at hk
  | some u =>
    obtain ⟨ihm, ihk⟩ := ih u hb
    obtain ⟨hF, hpost⟩ := h.post m a u ha hb
    refine ⟨fun i hi b hm => ?_, fun i hi j hj k hk => ?_⟩
    · simp only [AWorld.baseM, hb] at hm
      rw [hF i hi]
      cases ho : u.obs with
      | exact p x noise y =>
        rw [ho] at hpost hm
        simp only [obsMean] at hm
        rcases hpost with ⟨hx, hS⟩ | ⟨hx, zs, hz, hu⟩
        · rw [if_pos hx] at hm
          rw [hS]
          exact ihm i b hm
        · rw [if_neg hx] at hm
          obtain ⟨mi, h1, hm⟩ := bind_some hm
          obtain ⟨mz, h2, hm⟩ := bind_some hm
          obtain ⟨kzi, h3, hm⟩ := bind_some hm
          obtain ⟨kzz, h4, hm⟩ := bind_some hm
          cases hm
          exact SM.post hz hu (ihm _ _ h1) (ihm _ _ h2) (ihk _ _ _ h3) (ihk _ _ _ h4)
      | pseudo pu p o =>
        rw [ho] at hpost hm
        simp only [obsMean] at hm
        obtain ⟨zs, xs, hz, hx, hu⟩ := hpost
        obtain ⟨mi, h1, hm⟩ := bind_some hm
        obtain ⟨mz, h2, hm⟩ := bind_some hm
        obtain ⟨kzi, h3, hm⟩ := bind_some hm
        obtain ⟨kzx, h5, hm⟩ := bind_some hm
        obtain ⟨kzz, h4, hm⟩ := bind_some hm
        split at hm
        · obtain ⟨kxx, h6, hm⟩ := bind_some hm
          obtain ⟨mx, h7, hm⟩ := bind_some hm
          cases hm
          exact SM.pseudo hz hx hu (ihm _ _ h1) (ihm _ _ h7) (ihk _ _ _ h3) (ihk _ _ _ h4) (ihk _ _ _ h5) (ihk _ _ _ h6)
        · cases hm
    · simp only [AWorld.baseK, hb] at hk
      rw [hF i hi, hF j hj]
      cases ho : u.obs with
      | exact p x noise y =>
        rw [ho] at hpost hk
        simp only [obsKernel] at hk
        rcases hpost with ⟨hx, hS⟩ | ⟨hx, zs, hz, hu⟩
        · rw [if_pos hx] at hk
          rw [hS]
          exact (ihk i j k hk).ak
        · rw [if_neg hx] at hk
          obtain ⟨kij, h1, hk⟩ := bind_some hk
          obtain ⟨kzi, h2, hk⟩ := bind_some hk
          obtain ⟨kzj, h3, hk⟩ := bind_some hk
          obtain ⟨kzz, h4, hk⟩ := bind_some hk
          cases hk
          exact AK.post hz hu (ihk _ _ _ h1).ak (ihk _ _ _ h2) (ihk _ _ _ h3) (ihk _ _ _ h4)
      | pseudo pu p o =>
        rw [ho] at hpost hk
        simp only [obsKernel] at hk
        obtain ⟨zs, xs, hz, hx, hu⟩ := hpost
        obtain ⟨kij, h1, hk⟩ := bind_some hk
        obtain ⟨kzi, h2, hk⟩ := bind_some hk
        obtain ⟨kzj, h3, hk⟩ := bind_some hk
        obtain ⟨kzx, h5, hk⟩ := bind_some hk
        obtain ⟨kzz, h4, hk⟩ := bind_some hk
        split at hk
        · obtain ⟨kxx, h6, hk⟩ := bind_some hk
          cases hk
          exact AK.pseudo hz hx hu (ihk _ _ _ h1).ak (ihk _ _ _ h2) (ihk _ _ _ h3) (ihk _ _ _ h4) (ihk _ _ _ h5)
            (ihk _ _ _ h6)
        · cases hk

/-- All definitions. -/
theorem defs_sound (h : I.Laws L) (st : Stable L) {n : ℕ} (low : ∀ n' < n, ∀ m, SoundAt I L n' m) {m : MId}
    {a : AMeas} (ha : L.ms[m]? = some a) (ih : ∀ u, a.base = some u → SoundAt I L n u.prior) :
    ∀ es new, a.defs = new ++ es →
      (∀ i b, lookMDefs m (L.baseM a) a.basePs es i = some b →
        SM L.mean L.kernel n b (expect (I.S m) (I.F m i))) ∧
      ∀ i j k, lookKDefs m (L.baseK a) a.basePs es i j = some k →
        AK L.mean L.kernel n k (cov (I.S m) (I.F m i) (I.F m j)) := by
  have hmlow : ∀ n' < n, ∀ (m : MId) p a, L.mean m p = some a → SM L.mean L.kernel n' a (expect (I.S m) (I.F m p)) :=
    fun n' hn m => (low n' hn m).1
  have hklow : ∀ n' < n, ∀ (m : MId) p q k, L.kernel m p q = some k →
      SK L.mean L.kernel n' k (cov (I.S m) (I.F m p) (I.F m q)) := fun n' hn m => (low n' hn m).2
  obtain ⟨hbm, hbk⟩ := base_sound h ha ih
  intro es
  induction es with
  | nil =>
    intro new _
    refine ⟨fun i b hm => ?_, fun i j k hk => ?_⟩
    · simp only [lookMDefs] at hm
      split at hm
      · next hi => exact hbm i hi b hm
      · cases hm
    · simp only [lookKDefs] at hk
      split at hk
      · next hi => exact hbk i hi.1 j hi.2 k hk
      · cases hk
  | cons e es ihe =>
    obtain ⟨p, d⟩ := e
    intro new hnew
    obtain ⟨ihm, ihk⟩ := ihe (new ++ [(p, d)]) (by rw [hnew]; simp)
    have hd := h.defs m a new p d es ha hnew
    have hle : ∀ i j, OLe (lookKDefs m (L.baseK a) a.basePs es i j) (L.kernel m i j) := by
      intro i j k hk
      have hkn := lookKDefs_known hk
      have hnd := st.nodup m a ha
      have e : a.defs = (new ++ [(p, d)]) ++ es := by rw [hnew]; simp
      simp only [AMeas.ps, e] at hnd
      rw [kernel_eq st.base_lt ha, e, lookKDefs_append (not_mem_new hnd hkn.1) (not_mem_new hnd hkn.2)]
      exact hk
    refine ⟨fun i b hm => ?_, fun i j k hk => ?_⟩
    · simp only [lookMDefs] at hm
      split at hm
      · next hi => subst hi; exact defMean_sound h.ok (h.one_E m) hmlow ihm hd hm
      · exact ihm i b hm
    · simp only [lookKDefs] at hk
      split at hk
      · next hi =>
        subst hi
        split at hk
        · next hj => subst hj; exact defKernel_sound h.ok (h.one_C m) hmlow hklow ihk hd hk
        · split at hk
          · next hj => exact defLeft_sound h.ok (h.one_C m) hmlow hklow ihk hle hd hj hk
          · cases hk
      · split at hk
        · next hj =>
          subst hj
          split at hk
          · next hi => exact defRight_sound h.ok (h.one_C m) hmlow hklow ihk hle hd hi hk
          · cases hk
        · exact ihk i j k hk

/-- Means and kernels of the specification machine are expectations and covariances, at any recursion depth. -/
theorem Interp.Laws.sound (h : I.Laws L) (st : Stable L) : ∀ n m, SoundAt I L n m := by
  intro n
  induction n using Nat.strong_induction_on with
  | _ n low =>
    intro m
    induction m using Nat.strong_induction_on with
    | _ m ih =>
      cases ha : L.ms[m]? with
      | none =>
        refine ⟨fun p a hm => ?_, fun p q k hk => ?_⟩
        · simp [AWorld.mean, specMAux, ha] at hm
        · simp [AWorld.kernel, specKAux, ha] at hk
      | some a =>
        obtain ⟨hm, hk⟩ := defs_sound h st low ha (fun u hu => ih u.prior (st.base_lt m a ha u hu)) a.defs [] rfl
        refine ⟨fun p b hb => hm p b ?_, fun p q k hk' => AK.lift (h.ok _ _) (h.ok _ _) (hk p q k ?_)⟩
        · rw [← mean_eq st.base_lt ha]; exact hb
        · rw [← kernel_eq st.base_lt ha]; exact hk'

end Main

end Stheno
