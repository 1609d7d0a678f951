import Verif.Eval
import Verif.Mono

/-!
# Evaluation is monotone in the recursion depth and in the lookups

Once an evaluation returns, it returns the same with more recursion depth, and also after the model was
extended.
-/

namespace Stheno

theorem OLe.trans {α : Type} {a b c : Option α} (h : OLe a b) (h' : OLe b c) : OLe a c :=
  fun v hv => h' v (h v hv)

theorem OLe.map {α β : Type} {a b : Option α} (h : OLe a b) (f : α → β) : OLe (a.map f) (b.map f) := by
  intro v hv
  obtain ⟨u, hu, rfl⟩ := Option.map_eq_some_iff.1 hv
  rw [h u hu]; rfl

theorem OLe.mapM {α β : Type} {f g : α → Option β} (h : ∀ a, OLe (f a) (g a)) :
    ∀ l : List α, OLe (l.mapM f) (l.mapM g)
  | [] => by simp only [List.mapM_nil]; exact OLe.rfl
  | a :: l => by
    simp only [List.mapM_cons]
    exact (h a).bind fun _ => (OLe.mapM h l).bind fun _ => OLe.rfl

/-- `r'` returns at least what `r` returns. -/
structure Ev.Le (r r' : Ev) : Prop where
  M : ∀ a x, OLe (r.M a x) (r'.M a x)
  K : ∀ k x y, OLe (r.K k x y) (r'.K k x y)
  D : ∀ k x y, OLe (r.D k x y) (r'.D k x y)

section
variable {lm lm' : MId → PId → Option MExpr} {lk lk' : MId → PId → PId → Option KExpr} {r r' : Ev}

theorem stepFn_mono (hm : ∀ m p, OLe (lm m p) (lm' m p)) (h : r.Le r') (f : Fn) (x : Input) :
    OLe (stepFn lm r f x) (stepFn lm' r' f x) := by
  cases f with
  | user f => cases x <;> exact OLe.rfl
  | const c => exact OLe.rfl
  | meanOf m p => exact (hm m p).bind fun _ => h.M _ _

theorem scalK_mono (h : r.Le r') (k : KExpr) (x y : Pt) : OLe (scalK r k x y) (scalK r' k x y) :=
  (h.K _ _ _).bind fun _ => OLe.rfl

theorem scalM_mono (h : r.Le r') (a : MExpr) (x : Pt) : OLe (scalM r a x) (scalM r' a x) :=
  (h.M _ _).bind fun _ => OLe.rfl

theorem OLe.eq_of_isSome {α : Type} {a b : Option α} (h : OLe a b) (ha : a.isSome) : a = b := by
  obtain ⟨v, hv⟩ := Option.isSome_iff_exists.1 ha
  rw [hv, h v hv]

theorem bump_length (d : ℕ) (t : ℝ) (x : Pt) : (bump d t x).length = x.length := by
  simp [bump]

theorem derivK_congr {f g : Pt → Pt → ℝ} {d e : Option ℕ} {x y : Pt}
    (h : ∀ s t, f (bumps d s x) (bumps e t y) = g (bumps d s x) (bumps e t y)) :
    derivK f d e x y = derivK g d e x y := by
  unfold derivK
  split
  · exact h 0 0
  · congr 1; funext s; exact h s 0
  · congr 1; funext s; exact h 0 s
  · congr 1; funext s; congr 1; funext t; exact h s t

theorem diffEntry_mono (h : r.Le r') (k : KExpr) (d e : Option ℕ) (x y : Pt) :
    OLe (diffEntry r k d e x y) (diffEntry r' k d e x y) := by
  intro v hv
  unfold diffEntry at hv ⊢
  split at hv
  · next hc =>
    obtain ⟨h1, h2, h3⟩ := hc
    rw [if_pos ⟨h1, h2, fun s t => (scalK_mono h k _ _).isSome (h3 s t)⟩]
    rw [← hv]
    congr 1
    apply derivK_congr
    intro s t
    rw [(scalK_mono h k _ _).eq_of_isSome (h3 s t)]
  · simp at hv

theorem diffMEntry_mono (h : r.Le r') (a : MExpr) (d : ℕ) (x : Pt) :
    OLe (diffMEntry r a d x) (diffMEntry r' a d x) := by
  intro v hv
  unfold diffMEntry at hv ⊢
  split at hv
  · next hc =>
    obtain ⟨h1, h3⟩ := hc
    rw [if_pos ⟨h1, fun s => (scalM_mono h a _).isSome (h3 s)⟩]
    rw [← hv]
    congr 2
    funext s
    rw [(scalM_mono h a _).eq_of_isSome (h3 s)]
  · simp at hv

theorem getD_mem {α : Type} {l : List α} {i : ℕ} {d : α} (h : i < l.length) : l.getD i d ∈ l := by
  rw [List.getD_eq_getElem?_getD, List.getElem?_eq_getElem h]
  exact List.getElem_mem _

theorem diffMat_mono (h : r.Le r') (k : KExpr) (d e : Option ℕ) (xs ys : List Pt) :
    OLe (diffMat r k d e xs ys) (diffMat r' k d e xs ys) := by
  intro v hv
  unfold diffMat at hv ⊢
  split at hv
  · next hc =>
    rw [if_pos fun x hx y hy => (diffEntry_mono h k d e x y).isSome (hc x hx y hy), ← hv]
    congr 2
    funext i j
    by_cases hij : i < xs.length ∧ j < ys.length
    · rw [if_pos hij, if_pos hij]
      rw [(diffEntry_mono h k d e _ _).eq_of_isSome (hc _ (getD_mem hij.1) _ (getD_mem hij.2))]
    · rw [if_neg hij, if_neg hij]
  · simp at hv

theorem stepKz_mono (h : r.Le r') (k : KExpr) (z : Input) (noise : Mat) :
    OLe (stepKz r k z noise) (stepKz r' k z noise) :=
  (h.K _ _ _).bind fun _ => OLe.rfl

theorem stepKx_mono (h : r.Le r') (k : KExpr) (o : PseudoData) (n : ℕ) :
    OLe (stepKx r k o n) (stepKx r' k o n) := by
  unfold stepKx
  split
  · exact OLe.rfl
  · exact (h.D _ _ _).bind fun _ => OLe.rfl

theorem stepIngredients_mono (h : r.Le r') (kzz kzx kxx : KExpr) (o : PseudoData) :
    OLe (stepIngredients r kzz kzx kxx o) (stepIngredients r' kzz kzx kxx o) := by
  refine (stepKz_mono h _ _ _).bind fun K => (h.K _ _ _).bind fun Z => ?_
  split
  · exact (stepKx_mono h _ _ _).bind fun _ => OLe.rfl
  · exact OLe.rfl

theorem tupK_mono (h : r.Le r') (k : KExpr) (xs ys : List Input) :
    OLe (tupK r k xs ys) (tupK r' k xs ys) :=
  (OLe.mapM (fun _ => (OLe.mapM (fun _ => h.K _ _ _) ys).bind fun _ => OLe.rfl) xs).bind fun _ => OLe.rfl

theorem tupD_mono (h : r.Le r') (k : KExpr) (xs ys : List Input) :
    OLe (tupD r k xs ys) (tupD r' k xs ys) := by
  unfold tupD
  split
  · exact (OLe.mapM (fun _ => h.D _ _ _) _).bind fun _ => OLe.rfl
  · exact OLe.rfl

theorem stepKAtom_mono (hm : ∀ m p, OLe (lm m p) (lm' m p)) (hk : ∀ m p q, OLe (lk m p q) (lk' m p q))
    (h : r.Le r') (k : KExpr) (x y : Input) :
    OLe (stepKAtom lm lk r k x y) (stepKAtom lm' lk' r' k x y) := by
  cases k with
  | prim k => cases x <;> cases y <;> exact OLe.rfl
  | zero => exact OLe.rfl
  | mok m ps =>
    cases x <;> cases y <;> first | exact OLe.rfl | exact h.K _ _ _ | exact (hk _ _ _).bind fun _ => h.K _ _ _
  | adk k => exact h.K _ _ _
  | add a b => exact (h.K _ _ _).bind fun _ => (h.K _ _ _).bind fun _ => OLe.rfl
  | mul a b => exact (h.K _ _ _).bind fun _ => (h.K _ _ _).bind fun _ => OLe.rfl
  | scale c k => exact (h.K _ _ _).map _
  | tprod f g => exact (stepFn_mono hm h _ _).bind fun _ => (stepFn_mono hm h _ _).bind fun _ => OLe.rfl
  | rev k => exact (h.K _ _ _).map _
  | pre t u k => exact OLe.rfl.bind fun _ => OLe.rfl.bind fun _ => h.K _ _ _
  | diff d e k => cases x <;> cases y <;> first | exact OLe.rfl | exact diffMat_mono h _ _ _ _ _
  | post kij kzi kzj z kzz noise =>
    exact (h.K _ _ _).bind fun _ => (stepKz_mono h _ _ _).bind fun _ => (h.K _ _ _).bind fun _ =>
      (h.K _ _ _).bind fun _ => OLe.rfl
  | pseudo kij kzi kzj kzz kzx kxx o =>
    exact (h.K _ _ _).bind fun _ => (stepIngredients_mono h _ _ _ _).bind fun _ => (h.K _ _ _).bind fun _ =>
      (h.K _ _ _).bind fun _ => OLe.rfl

theorem stepDAtom_mono (hm : ∀ m p, OLe (lm m p) (lm' m p)) (hk : ∀ m p q, OLe (lk m p q) (lk' m p q))
    (h : r.Le r') (k : KExpr) (x y : Input) :
    OLe (stepDAtom lm lk r k x y) (stepDAtom lm' lk' r' k x y) := by
  cases k with
  | prim k => cases x <;> cases y <;> exact OLe.rfl
  | zero => exact OLe.rfl
  | mok m ps =>
    cases x <;> cases y <;> first | exact OLe.rfl | exact h.D _ _ _ | exact (hk _ _ _).bind fun _ => h.D _ _ _
  | adk k => exact h.D _ _ _
  | add a b => exact (h.D _ _ _).bind fun _ => (h.D _ _ _).bind fun _ => OLe.rfl
  | mul a b => exact (h.D _ _ _).bind fun _ => (h.D _ _ _).bind fun _ => OLe.rfl
  | scale c k => exact (h.D _ _ _).map _
  | tprod f g => exact (stepFn_mono hm h _ _).bind fun _ => (stepFn_mono hm h _ _).bind fun _ => OLe.rfl
  | rev k => exact h.D _ _ _
  | pre t u k => exact OLe.rfl.bind fun _ => OLe.rfl.bind fun _ => h.D _ _ _
  | diff d e k =>
    cases x <;> cases y <;> try exact OLe.rfl
    simp only [stepDAtom]
    split
    · exact OLe.mapM (fun _ => diffEntry_mono h _ _ _ _ _) _
    · exact OLe.rfl
  | post kij kzi kzj z kzz noise =>
    exact (h.D _ _ _).bind fun _ => (stepKz_mono h _ _ _).bind fun _ => (h.K _ _ _).bind fun _ =>
      (h.K _ _ _).bind fun _ => OLe.rfl
  | pseudo kij kzi kzj kzz kzx kxx o =>
    exact (h.D _ _ _).bind fun _ => (stepIngredients_mono h _ _ _ _).bind fun _ => (h.K _ _ _).bind fun _ =>
      (h.K _ _ _).bind fun _ => OLe.rfl

theorem stepM_mono (hm : ∀ m p, OLe (lm m p) (lm' m p)) (h : r.Le r') (a : MExpr) (x : Input) :
    OLe (stepM lm r a x) (stepM lm' r' a x) := by
  cases a with
  | zero => exact OLe.rfl
  | fn f => exact stepFn_mono hm h _ _
  | mom m ps =>
    cases x with
    | num xs => exact h.M _ _
    | fdd p x => exact (hm _ _).bind fun _ => h.M _ _
    | tup xs =>
      simp only [stepM]
      split
      · exact OLe.rfl
      · exact (OLe.mapM (fun _ => h.M _ _) _).map _
  | add a b => exact (h.M _ _).bind fun _ => (h.M _ _).bind fun _ => OLe.rfl
  | mul a b => exact (h.M _ _).bind fun _ => (h.M _ _).bind fun _ => OLe.rfl
  | scale c k => exact (h.M _ _).map _
  | pre t a => exact OLe.rfl.bind fun _ => h.M _ _
  | diff d a =>
    cases x <;> first | exact OLe.rfl | exact OLe.mapM (fun _ => diffMEntry_mono h _ _ _) _
  | post mi mz kzi z kzz noise y =>
    exact (h.M _ _).bind fun _ => (stepKz_mono h _ _ _).bind fun _ => (h.M _ _).bind fun _ =>
      (h.K _ _ _).bind fun _ => OLe.rfl
  | pseudo mi mz mx kzi kzz kzx kxx o =>
    exact (h.M _ _).bind fun _ => (stepIngredients_mono h _ _ _ _).bind fun _ => (h.M _ _).bind fun _ =>
      (h.M _ _).bind fun _ => (h.K _ _ _).bind fun _ => OLe.rfl

theorem step_mono (hm : ∀ m p, OLe (lm m p) (lm' m p)) (hk : ∀ m p q, OLe (lk m p q) (lk' m p q))
    (h : r.Le r') : (step lm lk r).Le (step lm' lk' r') where
  M a x := stepM_mono hm h a x
  K k x y := by
    cases x <;> cases y <;> first | exact tupK_mono h _ _ _ | exact stepKAtom_mono hm hk h _ _ _
  D k x y := by
    cases x <;> cases y <;> first | exact tupD_mono h _ _ _ | exact stepDAtom_mono hm hk h _ _ _

theorem Ev.bot_le (r : Ev) : Ev.bot.Le r where
  M _ _ _ h := by simp [Ev.bot] at h
  K _ _ _ _ h := by simp [Ev.bot] at h
  D _ _ _ _ h := by simp [Ev.bot] at h

/-- Evaluation is monotone in the lookups. -/
theorem ev_mono (hm : ∀ m p, OLe (lm m p) (lm' m p)) (hk : ∀ m p q, OLe (lk m p q) (lk' m p q)) :
    ∀ n, (ev lm lk n).Le (ev lm' lk' n)
  | 0 => Ev.bot_le _
  | n + 1 => step_mono hm hk (ev_mono hm hk n)

theorem Ev.Le.trans {r r' r'' : Ev} (h : r.Le r') (h' : r'.Le r'') : r.Le r'' where
  M a x := (h.M a x).trans (h'.M a x)
  K k x y := (h.K k x y).trans (h'.K k x y)
  D k x y := (h.D k x y).trans (h'.D k x y)

theorem ev_succ : ∀ n, (ev lm lk n).Le (ev lm lk (n + 1))
  | 0 => Ev.bot_le _
  | n + 1 => step_mono (fun _ _ => OLe.rfl) (fun _ _ _ => OLe.rfl) (ev_succ n)

/-- Evaluation is monotone in the recursion depth. -/
theorem ev_le {n n' : ℕ} (h : n ≤ n') : (ev lm lk n).Le (ev lm lk n') := by
  induction h with
  | refl => exact ⟨fun _ _ => OLe.rfl, fun _ _ _ => OLe.rfl, fun _ _ _ => OLe.rfl⟩
  | step _ ih => exact ih.trans (ev_succ _)

end

end Stheno
