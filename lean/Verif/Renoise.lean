import Verif.SpecOps
import Verif.Plain

/-!
# Changing observations

Tables of means and kernels, and states, of programs that differ only in the noise of exact observations and in the values that are observed.
-/

namespace Stheno

/-- What becomes of the noise of exact observations, and of the values of all observations. -/
structure Change where
  noise : Mat → Mat
  y : List ℝ → List ℝ

/-- A change of the noise. -/
instance : Coe (Mat → Mat) Change := ⟨fun φ => ⟨φ, id⟩⟩

/-- Other values of a pseudo-observation. -/
def PseudoData.revalue (φ : Change) (o : PseudoData) : PseudoData := { o with y := φ.y o.y }

theorem PseudoData.revalue_id (φ : Mat → Mat) (o : PseudoData) : o.revalue ⟨φ, id⟩ = o := rfl

variable (φ : Change)

/-- The kernel after a change of observations. -/
def KExpr.renoise : KExpr → KExpr
  | .adk k => .adk k.renoise
  | .add a b => .add a.renoise b.renoise
  | .mul a b => .mul a.renoise b.renoise
  | .scale c k => .scale c k.renoise
  | .rev k => .rev k.renoise
  | .pre t u k => .pre t u k.renoise
  | .diff d e k => .diff d e k.renoise
  | .post kij kzi kzj z kzz noise => .post kij.renoise kzi.renoise kzj.renoise z kzz.renoise (φ.noise noise)
  | .pseudo kij kzi kzj kzz kzx kxx o => .pseudo kij.renoise kzi.renoise kzj.renoise kzz.renoise kzx.renoise kxx.renoise (o.revalue φ)
  | k => k

/-- The same for means. -/
def MExpr.renoise : MExpr → MExpr
  | .add a b => .add a.renoise b.renoise
  | .mul a b => .mul a.renoise b.renoise
  | .scale c a => .scale c a.renoise
  | .pre t a => .pre t a.renoise
  | .diff d a => .diff d a.renoise
  | .post mi mz kzi z kzz noise y => .post mi.renoise mz.renoise (kzi.renoise φ) z (kzz.renoise φ) (φ.noise noise) (φ.y y)
  | .pseudo mi mz mx kzi kzz kzx kxx o =>
    .pseudo mi.renoise mz.renoise mx.renoise (kzi.renoise φ) (kzz.renoise φ) (kzx.renoise φ) (kxx.renoise φ) (o.revalue φ)
  | a => a

/-- The observation after a change. -/
def Obs.renoise : Obs → Obs
  | .exact p x noise y => .exact p x (φ.noise noise) (φ.y y)
  | .pseudo pu p o => .pseudo pu p (o.revalue φ)

/-- The operation after a change of observations. -/
def Op.renoise : Op → Op
  | .condition m obs => .condition m (obs.renoise φ)
  | o => o

/-- The program after a change of observations. -/
def renoise (ops : List Op) : List Op := ops.map (Op.renoise φ)

/-- The measure after a change of observations. -/
def AMeas.renoise (a : AMeas) : AMeas := { a with base := a.base.map fun u => ⟨u.prior, u.obs.renoise φ⟩ }

/-- The state after a change of observations. -/
def AWorld.renoise (L : AWorld) : AWorld := { L with ms := L.ms.map (AMeas.renoise φ) }

/-- Definitions that do not bring observations of their own: no custom rules, and means and kernels that do not refer to measures. -/
def ProcDef.Natural : ProcDef → Prop
  | .indep mean k => mean.Plain ∧ k.Plain
  | .custom _ _ _ => False
  | _ => True

/-- Operations that do not. -/
def Op.Natural : Op → Prop
  | .gp mean k _ _ => mean.Plain ∧ k.Plain
  | .addGP _ _ _ _ _ => False
  | _ => True

/-- States of such programs. -/
def AWorld.Natural (L : AWorld) : Prop := ∀ a ∈ L.ms, ∀ e ∈ a.defs, e.2.Natural

theorem KExpr.Plain.renoise {k : KExpr} (h : k.Plain) : k.renoise φ = k := by
  induction k with
  | prim | zero | tprod => rfl
  | add a b ha hb | mul a b ha hb => exact congrArg₂ _ (ha h.1) (hb h.2)
  | scale c k ih => exact congrArg _ (ih h)
  | _ => exact h.elim

theorem MExpr.Plain.renoise {a : MExpr} (h : a.Plain) : a.renoise φ = a := by
  induction a with
  | zero | fn => rfl
  | add a b ha hb | mul a b ha hb => exact congrArg₂ _ (ha h.1) (hb h.2)
  | scale c k ih => exact congrArg _ (ih h)
  | _ => exact h.elim

theorem kadd_renoise (a b : KExpr) : kadd (a.renoise φ) (b.renoise φ) = (kadd a b).renoise φ := by
  cases a <;> cases b <;> rfl

theorem kmul_renoise (a b : KExpr) : kmul (a.renoise φ) (b.renoise φ) = (kmul a b).renoise φ := by
  cases a <;> cases b <;> rfl

theorem kscale_renoise (c : ℝ) (k : KExpr) : kscale c (k.renoise φ) = (kscale c k).renoise φ := by cases k <;> rfl

theorem krev_renoise (k : KExpr) : krev (k.renoise φ) = (krev k).renoise φ := by cases k <;> rfl

theorem kpre_renoise (t u : InTr) (k : KExpr) : kpre t u (k.renoise φ) = (kpre t u k).renoise φ := by cases k <;> rfl

theorem kdiff_renoise (d e : Option ℕ) (k : KExpr) : kdiff d e (k.renoise φ) = (kdiff d e k).renoise φ := by cases k <;> rfl

/-! ## Tables -/

section
variable {φ}

theorem defMean_renoise {m : MId} {lm : PId → Option MExpr} {d : ProcDef} (hd : d.Natural) :
    defMean m (fun p => (lm p).map (MExpr.renoise φ)) d = (defMean m lm d).map (MExpr.renoise φ) := by
  cases d with
  | indep a k => exact congrArg some (hd.1.renoise φ).symm
  | custom => exact hd.elim
  | cross => rfl
  | copy p => rfl
  | sum p q | rem p q => simp only [defMean]; cases lm p <;> cases lm q <;> rfl
  | addFn p | scale p | fmul p | pre p | diff p => simp only [defMean]; cases lm p <;> rfl

theorem defKernel_renoise {m : MId} {lk : PId → PId → Option KExpr} {d : ProcDef} (hd : d.Natural) :
    defKernel m (fun p q => (lk p q).map (KExpr.renoise φ)) d = (defKernel m lk d).map (KExpr.renoise φ) := by
  cases d with
  | indep a k => exact congrArg some (hd.2.renoise φ).symm
  | custom => exact hd.elim
  | cross => rfl
  | copy p => rfl
  | sum p q | rem p q =>
    simp only [defKernel]
    cases lk p p <;> cases lk q q <;> cases lk p q <;> cases lk q p <;> simp [kadd_renoise, kmul_renoise]
  | addFn p => rfl
  | scale p c => simp only [defKernel]; cases lk p p <;> simp [kscale_renoise]
  | fmul p f =>
    simp only [defKernel]
    cases h : lk p p with
    | none => rfl
    | some k => exact congrArg some (kmul_renoise φ (.tprod f f) k)
  | pre p => simp only [defKernel]; cases lk p p <;> simp [kpre_renoise]
  | diff p => simp only [defKernel]; cases lk p p <;> simp [kdiff_renoise]

theorem defLeft_renoise {m : MId} {lk : PId → PId → Option KExpr} {j : PId} {d : ProcDef} (hd : d.Natural) :
    defLeft m (fun p q => (lk p q).map (KExpr.renoise φ)) j d = (defLeft m lk j d).map (KExpr.renoise φ) := by
  cases d with
  | indep a k => rfl
  | custom => exact hd.elim
  | cross => rfl
  | copy p => rfl
  | rem => rfl
  | sum p q =>
    simp only [defLeft]
    cases lk p j <;> cases lk q j <;> simp [kadd_renoise]
  | addFn p => rfl
  | scale p c => simp only [defLeft]; cases lk p j <;> simp [kscale_renoise]
  | fmul p f =>
    simp only [defLeft]
    cases h : lk p j with
    | none => rfl
    | some k => exact congrArg some (kmul_renoise φ (.tprod f (.const 1)) k)
  | pre p => simp only [defLeft]; cases lk p j <;> simp [kpre_renoise]
  | diff p => simp only [defLeft]; cases lk p j <;> simp [kdiff_renoise]

theorem defRight_renoise {m : MId} {lk : PId → PId → Option KExpr} {i : PId} {d : ProcDef} (hd : d.Natural) :
    defRight m (fun p q => (lk p q).map (KExpr.renoise φ)) i d = (defRight m lk i d).map (KExpr.renoise φ) := by
  have key : (do pure (krev (← defLeft m (fun p q => (lk p q).map (KExpr.renoise φ)) i d)) : Option KExpr) =
      (do pure (krev (← defLeft m lk i d)) : Option KExpr).map (KExpr.renoise φ) := by
    rw [defLeft_renoise hd]
    cases defLeft m lk i d <;> simp [krev_renoise]
  cases d with
  | indep | rem | copy => rfl
  | custom => exact hd.elim
  | _ => exact key

theorem lookKDefs_renoise {m : MId} {base : PId → PId → Option KExpr} {basePs : List PId} : ∀ {es : List (PId × ProcDef)},
    (∀ e ∈ es, e.2.Natural) → ∀ i j, lookKDefs m (fun i j => (base i j).map (KExpr.renoise φ)) basePs es i j =
      (lookKDefs m base basePs es i j).map (KExpr.renoise φ)
  | [], _, i, j => by
    unfold lookKDefs
    split <;> rfl
  | (p, d) :: es, h, i, j => by
    have ih := lookKDefs_renoise (m := m) (base := base) (basePs := basePs) (es := es) fun e he => h e (List.mem_cons_of_mem _ he)
    have ih' : lookKDefs m (fun i j => (base i j).map (KExpr.renoise φ)) basePs es = fun i j => (lookKDefs m base basePs es i j).map (KExpr.renoise φ) := by
      funext i j; exact ih i j
    have hd := h _ List.mem_cons_self
    unfold lookKDefs
    rw [ih', defKernel_renoise hd, defLeft_renoise hd, defRight_renoise hd]
    split_ifs <;> rfl

theorem lookMDefs_renoise {m : MId} {base : PId → Option MExpr} {basePs : List PId} : ∀ {es : List (PId × ProcDef)},
    (∀ e ∈ es, e.2.Natural) → ∀ i, lookMDefs m (fun i => (base i).map (MExpr.renoise φ)) basePs es i =
      (lookMDefs m base basePs es i).map (MExpr.renoise φ)
  | [], _, i => by
    unfold lookMDefs
    split <;> rfl
  | (p, d) :: es, h, i => by
    have ih := lookMDefs_renoise (m := m) (base := base) (basePs := basePs) (es := es) fun e he => h e (List.mem_cons_of_mem _ he)
    have ih' : lookMDefs m (fun i => (base i).map (MExpr.renoise φ)) basePs es = fun i => (lookMDefs m base basePs es i).map (MExpr.renoise φ) := by
      funext i; exact ih i
    have hd := h _ List.mem_cons_self
    unfold lookMDefs
    rw [ih', defMean_renoise hd]
    split_ifs <;> rfl

theorem obsKernel_renoise {lk : PId → PId → Option KExpr} (o : Obs) (i j : PId) :
    obsKernel (fun p q => (lk p q).map (KExpr.renoise φ)) none (o.renoise φ) i j = (obsKernel lk none o i j).map (KExpr.renoise φ) := by
  cases o with
  | exact p x noise y =>
    simp only [obsKernel, Obs.renoise]
    split
    · rfl
    · cases lk i j <;> cases lk p i <;> cases lk p j <;> cases lk p p <;> rfl
  | pseudo pu p o =>
    obtain ⟨μ, z, nz, x, nx, y⟩ := o
    simp only [obsKernel, Obs.renoise, PseudoData.revalue]
    split <;> cases lk i j <;> cases lk pu i <;> cases lk pu j <;> cases lk pu p <;> cases lk pu pu <;> cases lk p p <;> rfl

theorem obsMean_renoise {lm : PId → Option MExpr} {lk : PId → PId → Option KExpr} (o : Obs) (i : PId) :
    obsMean (fun p => (lm p).map (MExpr.renoise φ)) (fun p q => (lk p q).map (KExpr.renoise φ)) none (o.renoise φ) i =
      (obsMean lm lk none o i).map (MExpr.renoise φ) := by
  cases o with
  | exact p x noise y =>
    simp only [obsMean, Obs.renoise]
    split
    · rfl
    · cases lm i <;> cases lm p <;> cases lk p i <;> cases lk p p <;> rfl
  | pseudo pu p o =>
    obtain ⟨μ, z, nz, x, nx, y⟩ := o
    simp only [obsMean, Obs.renoise, PseudoData.revalue]
    split <;> cases lm i <;> cases lm pu <;> cases lk pu i <;> cases lk pu p <;> cases lk pu pu <;> cases lm p <;> cases lk p p <;> rfl

theorem specKAux_renoise {ms : List AMeas} (h : ∀ a ∈ ms, ∀ e ∈ a.defs, e.2.Natural) : ∀ (n : ℕ) (m : MId) (i j : PId),
    specKAux (ms.map (AMeas.renoise φ)) n m i j = (specKAux ms n m i j).map (KExpr.renoise φ)
  | 0, _, _, _ => rfl
  | n + 1, m, i, j => by
    have ih := specKAux_renoise h n
    unfold specKAux
    rw [List.getElem?_map]
    cases hm : ms[m]? with
    | none => rfl
    | some a =>
      show lookKDefs m _ a.basePs a.defs i j = Option.map _ (lookKDefs m _ a.basePs a.defs i j)
      rw [← lookKDefs_renoise (h a (List.mem_of_getElem? hm))]
      congr 1
      funext i j
      cases hb : a.base with
      | none => simp [AMeas.renoise, hb]
      | some u =>
        simp only [AMeas.renoise, hb, Option.map_some]
        rw [← obsKernel_renoise]
        congr 1
        funext p q
        exact ih _ _ _

theorem specMAux_renoise {ms : List AMeas} (h : ∀ a ∈ ms, ∀ e ∈ a.defs, e.2.Natural) : ∀ (n : ℕ) (m : MId) (i : PId),
    specMAux (ms.map (AMeas.renoise φ)) n m i = (specMAux ms n m i).map (MExpr.renoise φ)
  | 0, _, _ => rfl
  | n + 1, m, i => by
    have ih := specMAux_renoise h n
    unfold specMAux
    rw [List.getElem?_map]
    cases hm : ms[m]? with
    | none => rfl
    | some a =>
      show lookMDefs m _ a.basePs a.defs i = Option.map _ (lookMDefs m _ a.basePs a.defs i)
      rw [← lookMDefs_renoise (h a (List.mem_of_getElem? hm))]
      congr 1
      funext i
      cases hb : a.base with
      | none => simp [AMeas.renoise, hb]
      | some u =>
        simp only [AMeas.renoise, hb, Option.map_some]
        rw [← obsMean_renoise]
        congr 1
        · funext p; exact ih _ _
        · funext p q; exact specKAux_renoise h n _ _ _

theorem AWorld.Natural.kernel {L : AWorld} (h : L.Natural) (m : MId) (i j : PId) :
    (L.renoise φ).kernel m i j = (L.kernel m i j).map (KExpr.renoise φ) := specKAux_renoise h _ _ _ _

theorem AWorld.Natural.mean {L : AWorld} (h : L.Natural) (m : MId) (i : PId) :
    (L.renoise φ).mean m i = (L.mean m i).map (MExpr.renoise φ) := specMAux_renoise h _ _ _

/-! ## Operations -/

/-- The outcome after a change of observations. -/
def renoiseR {α : Type} : EStateM.Result Err AWorld α → EStateM.Result Err AWorld α
  | .ok a L => .ok a (L.renoise φ)
  | .error e L => .error e (L.renoise φ)

/-- The state after an outcome. -/
def endOf {α : Type} : EStateM.Result Err AWorld α → AWorld
  | .ok _ L => L
  | .error _ L => L

variable (φ) in
/-- A program that does the same, whatever the observations. -/
def Comm {α : Type} (f : AM α) : Prop :=
  ∀ L : AWorld, L.Natural → f (L.renoise φ) = renoiseR (φ := φ) (f L) ∧ (endOf (f L)).Natural

namespace Comm

variable {α β : Type}

protected theorem pure (a : α) : Comm φ (pure a : AM α) := fun _ h => ⟨rfl, h⟩

protected theorem throw (e : Err) : Comm φ (throw e : AM α) := fun _ h => ⟨rfl, h⟩

protected theorem bind {f : AM α} {g : α → AM β} (hf : Comm φ f) (hg : ∀ a, Comm φ (g a)) : Comm φ (f >>= g) := by
  intro L h
  obtain ⟨h1, h2⟩ := hf L h
  show EStateM.bind f g (L.renoise φ) = renoiseR (EStateM.bind f g L) ∧ (endOf (EStateM.bind f g L)).Natural
  unfold EStateM.bind
  rw [h1]
  cases hr : f L with
  | ok a L' => rw [hr] at h2; exact hg a L' h2
  | error e L' => rw [hr] at h2; exact ⟨rfl, h2⟩

/-- What is read from a measure does not depend on the observations. -/
theorem bind_getMeas {m : MId} {g : AMeas → AM β} (hg : ∀ a, Comm φ (g a)) (hgg : ∀ a, g (a.renoise φ) = g a) :
    Comm φ (aGetMeas m >>= g) := by
  intro L h
  show EStateM.bind (aGetMeas m) g (L.renoise φ) = renoiseR (EStateM.bind (aGetMeas m) g L) ∧ (endOf (EStateM.bind (aGetMeas m) g L)).Natural
  unfold EStateM.bind aGetMeas
  have hm : (L.renoise φ).ms[m]? = L.ms[m]?.map (AMeas.renoise φ) := List.getElem?_map ..
  rw [hm]
  cases L.ms[m]? with
  | none => exact ⟨rfl, h⟩
  | some a =>
    show g (a.renoise φ) (L.renoise φ) = _ ∧ _
    rw [hgg]
    exact hg a L h

theorem bind_get {g : AWorld → AM β} (hg : ∀ L, Comm φ (g L)) (hgg : ∀ L, g (L.renoise φ) = g L) :
    Comm φ (get >>= g) := by
  intro L h
  show g (L.renoise φ) (L.renoise φ) = renoiseR (g L L) ∧ (endOf (g L L)).Natural
  rw [hgg]
  exact hg L L h

protected theorem modify {f : AWorld → AWorld} (hf : ∀ L, f (L.renoise φ) = (f L).renoise φ) (hn : ∀ L : AWorld, L.Natural → (f L).Natural) :
    Comm φ (modify f : AM Unit) := fun L h => ⟨congrArg (EStateM.Result.ok ()) (hf L), hn L h⟩

theorem forM {f : α → AM Unit} (hf : ∀ a, Comm φ (f a)) : ∀ l : List α, Comm φ (l.forM f)
  | [] => .pure _
  | a :: l => (hf a).bind fun _ => forM hf l

theorem mapM {f : α → AM β} (hf : ∀ a, Comm φ (f a)) : ∀ l : List α, Comm φ (l.mapM f)
  | [] => by rw [List.mapM_nil]; exact .pure _
  | a :: l => by
    rw [List.mapM_cons]
    exact (hf a).bind fun _ => (mapM hf l).bind fun _ => .pure _

end Comm

theorem renoise_modify {L : List AMeas} {m : ℕ} {f : AMeas → AMeas} (hf : ∀ a, f (a.renoise φ) = (f a).renoise φ) :
    (L.map (AMeas.renoise φ)).modify m f = (L.modify m f).map (AMeas.renoise φ) := by
  induction L generalizing m with
  | nil => cases m <;> rfl
  | cons a L ih =>
    cases m with
    | zero => simp [hf]
    | succ m => simpa using ih

theorem natural_modify {L : AWorld} (h : L.Natural) {m : ℕ} {f : AMeas → AMeas} (hf : ∀ a, (∀ e ∈ a.defs, e.2.Natural) → ∀ e ∈ (f a).defs, e.2.Natural)
    {g : List (List MId)} {d : Option MId} : AWorld.Natural { L with ms := L.ms.modify m f, gps := g, default := d } := by
  intro a ha e he
  obtain ⟨i, hi, rfl⟩ := List.getElem_of_mem ha
  simp only [List.getElem_modify] at he
  have hi' : i < L.ms.length := by simpa using hi
  split at he
  · exact hf _ (h _ (List.getElem_mem hi')) e he
  · exact h _ (List.getElem_mem hi') e he

theorem comm_measuresOf (p : PId) : Comm φ (aMeasuresOf p) := by
  intro L h
  unfold aMeasuresOf
  show (match L.gps[p]? with | some l => _ | none => _) = _ ∧ _
  cases L.gps[p]? <;> exact ⟨rfl, h⟩

theorem comm_define {m : MId} {p : PId} {d : ProcDef} (hd : d.Natural) : Comm φ (aDefine m p d) := by
  intro L h
  unfold aDefine
  have hM : (L.renoise φ).mean m = fun p => (L.mean m p).map (MExpr.renoise φ) := by funext p; exact h.mean m p
  have hK : (L.renoise φ).kernel m = fun p q => (L.kernel m p q).map (KExpr.renoise φ) := by funext p q; exact h.kernel m p q
  rw [hM, hK, defMean_renoise hd, defKernel_renoise hd, Option.isSome_map, Option.isSome_map]
  split
  · refine ⟨congrArg (EStateM.Result.ok ()) ?_, natural_modify h fun a ha e he => ?_⟩
    · unfold AWorld.push AWorld.renoise
      exact congrArg (fun l => ({ L with ms := l, gps := L.gps.modify p (· ++ [m]) } : AWorld)) (renoise_modify fun a => rfl)
    · rcases List.mem_cons.1 he with rfl | he
      · exact hd
      · exact ha e he
  · exact ⟨rfl, h⟩

theorem comm_newGP : Comm φ aNewGP := fun _ h => ⟨rfl, h⟩

theorem comm_newMeasure : Comm φ aNewMeasure := by
  intro L h
  refine ⟨?_, fun a ha e he => ?_⟩
  · show EStateM.Result.ok (L.ms.map (AMeas.renoise φ)).length { L with ms := L.ms.map (AMeas.renoise φ) ++ [({} : AMeas)] } =
      EStateM.Result.ok L.ms.length { L with ms := (L.ms ++ [({} : AMeas)]).map (AMeas.renoise φ) }
    rw [List.length_map, List.map_append]
    rfl
  · rcases List.mem_append.1 ha with ha | ha
    · exact h a ha e he
    · rw [List.mem_singleton.1 ha] at he
      exact absurd he List.not_mem_nil

theorem comm_primary (p : PId) : Comm φ (aPrimary p) :=
  (comm_measuresOf p).bind fun l => by cases l <;> first | exact .throw _ | exact .pure _

theorem comm_assertSame (p : PId) : ∀ qs, Comm φ (aAssertSame p qs)
  | [] => .pure _
  | q :: qs => (comm_primary p).bind fun mp => (comm_primary q).bind fun mq => by
    split
    · exact comm_assertSame p qs
    · exact .throw _

theorem comm_sum (m : MId) (res p q : PId) : Comm φ (aSum m res p q) := (comm_assertSame p _).bind fun _ => comm_define (by trivial)

theorem comm_mul (m : MId) (res p q : PId) : Comm φ (aMul m res p q) :=
  (comm_assertSame p _).bind fun _ => comm_newGP.bind fun _ => comm_newGP.bind fun _ => (comm_define (by trivial)).bind fun _ =>
    comm_newGP.bind fun _ => (comm_define (by trivial)).bind fun _ => (comm_sum _ _ _ _).bind fun _ => comm_newGP.bind fun _ =>
      (comm_define (by trivial)).bind fun _ => comm_sum _ _ _ _

theorem comm_call (m : MId) (p : PId) : Comm φ (aCall m p) :=
  comm_newGP.bind fun _ => .bind_getMeas (fun _ => (comm_define (by trivial)).bind fun _ => .pure _) fun _ => rfl

theorem comm_intersection (p : PId) (ps : List PId) : Comm φ (aIntersection p ps) :=
  (comm_assertSame p ps).bind fun _ => (comm_measuresOf p).bind fun _ => (Comm.mapM comm_measuresOf ps).bind fun _ => .pure _

theorem comm_iterate {s ord : List MId} {f : MId → AM Unit} (hf : ∀ m, Comm φ (f m)) : Comm φ (aIterate s ord f) := by
  unfold aIterate
  split
  · exact Comm.forM hf ord
  · exact .throw _

theorem comm_modMeas {m : MId} {f : AMeas → AMeas} (hf : ∀ a, f (a.renoise φ) = (f a).renoise φ) (hd : ∀ a, (f a).defs = a.defs) :
    Comm φ (aModMeas m f) :=
  Comm.modify (fun L => by
    unfold AWorld.renoise
    simp only
    rw [renoise_modify hf]) fun L h => natural_modify h fun a ha e he => ha e (hd a ▸ he)

theorem unname_renoise (a : AMeas) (p : PId) : (a.renoise φ).unname p = (a.unname p).renoise φ := by
  unfold AMeas.unname
  show (match a.namesByGp.lookup p with | some old => _ | none => _) = _
  cases a.namesByGp.lookup p <;> rfl

theorem unname_defs (a : AMeas) (p : PId) : (a.unname p).defs = a.defs := by
  unfold AMeas.unname
  split <;> rfl

theorem comm_setName (m : MId) (p : PId) (name : String) : Comm φ (aSetName m p name) :=
  .bind_getMeas (fun _ => (comm_modMeas (fun a => unname_renoise a p) fun a => unname_defs a p).bind fun _ =>
    .bind_getMeas (fun a => by
      split
      · exact .throw _
      · exact comm_modMeas (fun _ => rfl) fun _ => rfl) fun _ => rfl) fun _ => rfl

theorem comm_gpName (p : PId) (name : String) : Comm φ (aGpName p name) :=
  (comm_measuresOf p).bind fun ms => Comm.forM (fun m => comm_setName m p name) ms

theorem comm_enter (m : MId) : Comm φ (aEnter m) :=
  .bind_getMeas (fun _ => .bind_get (fun L => (comm_modMeas (f := fun a => { a with prevDefault := L.default }) (fun _ => rfl) fun _ => rfl).bind fun _ =>
    Comm.modify (f := fun L => { L with default := some m }) (fun _ => rfl) fun _ h => h) fun _ => rfl) fun _ => rfl

theorem comm_exit (m : MId) : Comm φ (aExit m) :=
  .bind_getMeas (fun a => Comm.modify (f := fun L => { L with default := a.prevDefault }) (fun _ => rfl) fun _ h => h) fun _ => rfl

theorem comm_resolve (measure : Option MId) : Comm φ (aResolve measure) := by
  cases measure with
  | some m => exact .bind_getMeas (fun _ => .pure _) fun _ => rfl
  | none =>
    exact .bind_get (fun L => by
      split
      · exact .pure _
      · exact comm_newMeasure) fun _ => rfl

theorem comm_nameNew (m : MId) (p : PId) (name : Option String) : Comm φ (aNameNew m p name) := by
  cases name with
  | none => exact .pure _
  | some n =>
    simp only [aNameNew]
    split
    · exact .pure _
    · exact comm_setName m p n

theorem comm_init {mean : MExpr} {k : KExpr} (h : mean.Plain ∧ k.Plain) (measure : Option MId) (name : Option String) :
    Comm φ (aInit mean k measure name) :=
  comm_newGP.bind fun _ => (comm_resolve measure).bind fun _ => (comm_define (d := .indep mean k) h).bind fun _ => (comm_nameNew _ _ name).bind fun _ => .pure _

theorem comm_unary {d : ProcDef} (hd : d.Natural) (p : PId) : Comm φ (aUnary d p) :=
  comm_newGP.bind fun _ => (comm_measuresOf p).bind fun ms => (Comm.forM (fun _ => comm_define hd) ms).bind fun _ => .pure _

theorem comm_cross (ps : List PId) (ord : List MId) : Comm φ (aCross ps ord) :=
  comm_newGP.bind fun _ => by
    cases ps with
    | nil => exact .throw _
    | cons p qs => exact (comm_intersection p qs).bind fun _ => (comm_iterate fun _ => comm_define (by trivial)).bind fun _ => .pure _

theorem comm_getM (m : MId) (p : PId) : Comm φ (aGetM m p >>= fun _ => pure ()) := by
  intro L h
  show EStateM.bind (aGetM m p) (fun _ => pure ()) (L.renoise φ) = renoiseR (EStateM.bind (aGetM m p) (fun _ => pure ()) L) ∧
    (endOf (EStateM.bind (aGetM m p) (fun _ => pure ()) L)).Natural
  unfold EStateM.bind aGetM
  rw [h.mean m p, show (L.renoise φ).ms.length = L.ms.length from List.length_map ..]
  split_ifs
  · cases L.mean m p <;> exact ⟨rfl, h⟩
  · exact ⟨rfl, h⟩

theorem comm_getK (m : MId) (p q : PId) : Comm φ (aGetK m p q >>= fun _ => pure ()) := by
  intro L h
  show EStateM.bind (aGetK m p q) (fun _ => pure ()) (L.renoise φ) = renoiseR (EStateM.bind (aGetK m p q) (fun _ => pure ()) L) ∧
    (endOf (EStateM.bind (aGetK m p q) (fun _ => pure ()) L)).Natural
  unfold EStateM.bind aGetK
  rw [h.kernel m p q, show (L.renoise φ).ms.length = L.ms.length from List.length_map ..]
  split_ifs
  · cases L.kernel m p q <;> exact ⟨rfl, h⟩
  · exact ⟨rfl, h⟩

/-- Conditioning on a changed observation, in a changed state. -/
theorem condition_renoise (m : MId) (obs : Obs) {L : AWorld} (h : L.Natural) :
    aCondition m (obs.renoise φ) (L.renoise φ) = renoiseR (φ := φ) (aCondition m obs L) ∧ (endOf (aCondition m obs L)).Natural := by
  unfold aCondition
  have hm : (L.renoise φ).ms[m]? = L.ms[m]?.map (AMeas.renoise φ) := List.getElem?_map ..
  rw [hm]
  cases hL : L.ms[m]? with
  | none => exact ⟨rfl, h⟩
  | some a =>
    refine ⟨?_, fun b hb e he => ?_⟩
    · show EStateM.Result.ok (L.ms.map (AMeas.renoise φ)).length _ = EStateM.Result.ok L.ms.length _
      rw [List.length_map]
      congr 1
      unfold AWorld.cond AWorld.renoise
      simp only [List.map_append, List.length_map]
      rfl
    · rcases List.mem_append.1 hb with hb | hb
      · exact h b hb e he
      · rw [List.mem_singleton.1 hb] at he
        exact absurd he List.not_mem_nil

/-- **Operations do the same, whatever the observations.** -/
theorem spec_renoise {o : Op} (ho : o.Natural) {L : AWorld} (h : L.Natural) :
    (o.renoise φ).spec (L.renoise φ) = renoiseR (φ := φ) (o.spec L) ∧ (endOf (o.spec L)).Natural := by
  cases o with
  | newMeasure => exact (comm_newMeasure.bind fun _ => .pure _) L h
  | newGP => exact (comm_newGP.bind fun _ => .pure _) L h
  | gp mean k measure nm => exact ((comm_init ho measure nm).bind fun _ => .pure _) L h
  | addFn | scale | fmul | pre | diff => exact ((comm_unary (by trivial) _).bind fun _ => .pure _) L h
  | add p q ord =>
    exact ((comm_newGP.bind fun _ => (comm_intersection p _).bind fun _ => (comm_iterate fun _ => comm_sum _ _ _ _).bind fun _ => .pure _).bind
      fun _ => .pure _) L h
  | mul p q ord =>
    exact ((comm_newGP.bind fun _ => (comm_intersection p _).bind fun _ => (comm_iterate fun _ => comm_mul _ _ _ _).bind fun _ => .pure _).bind
      fun _ => .pure _) L h
  | cross ps ord => exact ((comm_cross ps ord).bind fun _ => .pure _) L h
  | addGP => exact ho.elim
  | call m p => exact ((comm_call m p).bind fun _ => .pure _) L h
  | condition m obs =>
    obtain ⟨h1, h2⟩ := condition_renoise (φ := φ) m obs h
    show EStateM.bind (aCondition m (obs.renoise φ)) (fun _ => pure ()) (L.renoise φ) = renoiseR (EStateM.bind (aCondition m obs) (fun _ => pure ()) L) ∧
      (endOf (EStateM.bind (aCondition m obs) (fun _ => pure ()) L)).Natural
    unfold EStateM.bind
    rw [h1]
    cases hr : aCondition m obs L <;> rw [hr] at h2 <;> exact ⟨rfl, h2⟩
  | getM m p => exact comm_getM m p L h
  | getK m p q => exact comm_getK m p q L h
  | name m p s => exact comm_setName m p s L h
  | gpName p s => exact comm_gpName p s L h
  | enter m => exact comm_enter m L h
  | exit m => exact comm_exit m L h

theorem specAfter_renoise {o : Op} (ho : o.Natural) {L : AWorld} (h : L.Natural) :
    (o.renoise φ).specAfter (L.renoise φ) = (o.specAfter L).renoise φ ∧ (o.specAfter L).Natural := by
  obtain ⟨h1, h2⟩ := spec_renoise (φ := φ) ho h
  unfold Op.specAfter
  rw [h1]
  cases hr : o.spec L <;> rw [hr] at h2 <;> exact ⟨rfl, h2⟩

theorem specOps_renoise : ∀ {ops : List Op} {L : AWorld}, (∀ o ∈ ops, o.Natural) → L.Natural →
    specOps (renoise φ ops) (L.renoise φ) = (specOps ops L).renoise φ ∧ (specOps ops L).Natural
  | [], _, _, h => ⟨rfl, h⟩
  | o :: ops, L, ho, h => by
    obtain ⟨h1, h2⟩ := specAfter_renoise (φ := φ) (ho o List.mem_cons_self) h
    have := specOps_renoise (ops := ops) (fun o h => ho o (List.mem_cons_of_mem _ h)) h2
    show specOps (renoise φ ops) ((o.renoise φ).specAfter (L.renoise φ)) = _ ∧ _
    rw [h1]
    exact this

/-- **The state of a program with other observations** is that of the program, with other observations. -/
theorem specOps_empty_renoise {ops : List Op} (ho : ∀ o ∈ ops, o.Natural) :
    specOps (renoise φ ops) {} = (specOps ops {}).renoise φ ∧ (specOps ops {}).Natural :=
  specOps_renoise (L := {}) ho fun _ ha => absurd ha List.not_mem_nil

end

end Stheno
