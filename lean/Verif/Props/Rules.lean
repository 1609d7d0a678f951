import Verif.Product
import Verif.Props.Groups

/-!
# C43: user-supplied rules, at any later time

`C43_rules_partial` is about the tables right after `measure.add_gp`. Here they are looked up after any continuation of the program.
-/

namespace Stheno

section
variable {ops before after : List Op} {m : MId} {mean : MExpr} {kernel : KExpr} {left : LRule}

/-- **C43, without a right rule.** A process added with `measure.add_gp(mean, kernel, left_rule)` has, at any later time, the given
mean and kernel; its covariance with any process `j` that was in the measure is what the left rule returns at `j`, given the kernels of
the measure; and the covariance of `j` with it is the reversal of that. A left rule is any function of `j` and of kernels with `j`
(`LRule`). -/
theorem C43_rules (e : ops = before ++ .addGP m mean kernel left none :: after)
    (hr : (Op.addGP m mean kernel left none).raises (runOps before {}) = none) :
    let w := runOps ops {}
    let p := (runOps before {}).gps.length
    Attached w m p ∧ meanAt w m p = some mean ∧ kernelAt w m p p = some kernel ∧
      ∀ j, Attached (runOps before {}) m j → kernelAt w m p j = runL (kernelAt w m) j left ∧
        kernelAt w m j p = (runL (kernelAt w m) j left).map krev := by
  intro w p
  have ew : runOps (before ++ [.addGP m mean kernel left none]) {} = (Op.addGP m mean kernel left none).after (runOps before {}) := by
    simp [runOps]
  obtain ⟨h1, _⟩ := C43_rules_partial before m mean kernel left none hr
  rw [← ew] at h1
  obtain ⟨-, h⟩ := look_written (older := []) (younger := []) e rfl h1
  have e' : before ++ [.addGP m mean kernel left none] ++ after = ops := by rw [e]; simp
  refine ⟨by show Attached (runOps ops {}) m p; rw [← e']; exact attached_append after h1, h.mean, h.kernel, fun j hj => ?_⟩
  have hj' : j ∈ members (runOps before {}) m ++ ([] : List (PId × ProcDef)).map (·.1) := by simpa using mem_members.2 hj
  refine ⟨h.left j hj', (h.right j hj').trans ?_⟩
  show (runL (kernelAt w m) j left >>= fun k => pure (krev k)) = _
  cases runL (kernelAt w m) j left <;> rfl

/-- **C43, negation for all right rules.** A right rule makes no difference to anything. -/
theorem C43_right_rule_never_used (w : World) (right : Option RRule) :
    (Op.addGP m mean kernel left right).after w = (Op.addGP m mean kernel left none).after w ∧
      (Op.addGP m mean kernel left right).raises w = (Op.addGP m mean kernel left none).raises w := ⟨rfl, rfl⟩

end

/-- A process whose kernel with process 2 of `demo` is one, and with any other process the product of the kernels with processes 1 and 2,
and a copy of it. -/
noncomputable def ruled : LRule := .map2 (fun j a b => if j = 2 then .prim fun _ _ => 1 else kmul a b) (.look 1) (.look 2)

example : kernelAt (runOps (demo ++ [.addGP 0 .zero (.prim fun _ _ => 9) ruled none] ++ [.call 0 5]) {}) 0 1 5 =
    (runL (kernelAt (runOps (demo ++ [.addGP 0 .zero (.prim fun _ _ => 9) ruled none] ++ [.call 0 5]) {}) 0) 1 ruled).map krev :=
  ((C43_rules (before := demo) (after := [.call 0 5]) (List.append_assoc ..) rfl).2.2.2 1 (attached_iff.2 rfl)).2

end Stheno
