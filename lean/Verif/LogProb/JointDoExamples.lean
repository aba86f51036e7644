import Verif.LogProb.JointDoThms
import Verif.LogProb.JointExamples

/-! C82: instances. -/
namespace Verif.LogProb.Joint

open Verif.Propagate Verif.Inverse

theorem latentNormal_local : latentNormal.Local := by
  intro st hst x hx D hD
  simp only [latentNormal, draws, List.mem_cons, List.not_mem_nil, or_false] at hD hst
  rcases hD with rfl | rfl
  · simp [Draw.inner]
  · rcases hst with rfl | rfl | rfl <;> simp [Stmt.uses, Link.operand, Atom.node, Draw.inner] at hx ⊢ <;> omega

theorem latentNormal_all : ∀ D ∈ draws latentNormal.body, D.name ≠ none := by simp [draws, latentNormal]

theorem ne_zx : ¬ ("z" : String) = "x" := by decide +kernel
theorem ne_xz : ¬ ("x" : String) = "z" := by decide +kernel

/-- `joint_log_prob(intervene(f, z=2.))({'x': 5.})` is `logp(5 - 2)`: `z` is used for the mean of `x`, but its own log
density is not part of the sum. -/
theorem latentNormal_do_z : JointLogProb (latentNormal.intervene [("z", some 2)]) [("x", some 5)] []
    (.ok (some (-(3:ℝ) ^ 2 / 2))) := by
  rw [intervene_log_prob_partial latentNormal_wf latentNormal_noTags latentNormal_local latentNormal_nodup latentNormal_all
    _ _ [] rfl (by rw [latentNormal_names]; simp [ne_xz])]
  have e1 : dict [("z", some (2:ℝ)), ("x", some 5)] "z" = some (some 2) := by simp [dict, List.lookup]
  have e2 : dict [("z", some (2:ℝ)), ("x", some 5)] "x" = some (some 5) := by
    rw [dict, List.lookup, show ("x" == "z") = false by decide +kernel]
    simp [List.lookup]
  simp [Source.jointWithout, latentNormal, termsWithout, Draw.term, Draw.given, chainCell, Link.back, Stmt.run, putChain, put,
    e1, e2, Propagate.read, argEnv, putAll, bind2, Bin.gr, Bin.lr, addF, stdNormal, sumF, ne_xz]
  norm_num

/-- `joint_log_prob(intervene(f, x=5.))({'z': 2.})` is `logp(2)`: fixing `x` says nothing about `z`. -/
example : JointLogProb (latentNormal.intervene [("x", some 5)]) [("z", some 2)] [] (.ok (some (-(2:ℝ) ^ 2 / 2))) := by
  rw [intervene_log_prob_partial latentNormal_wf latentNormal_noTags latentNormal_local latentNormal_nodup latentNormal_all
    _ _ [] rfl (by rw [latentNormal_names]; simp [ne_zx])]
  have e1 : dict [("x", some (5:ℝ)), ("z", some 2)] "x" = some (some 5) := by simp [dict, List.lookup]
  have e2 : dict [("x", some (5:ℝ)), ("z", some 2)] "z" = some (some 2) := by
    rw [dict, List.lookup, show ("z" == "x") = false by decide +kernel]
    simp [List.lookup]
  simp [Source.jointWithout, latentNormal, termsWithout, Draw.term, Draw.given, chainCell, Stmt.run,
    e1, e2, addF, stdNormal, sumF, ne_zx]

/-- `joint_log_prob(conditional(f, 'z'))({'x': 5.}, 2.)` is `logp(5 - 2)` too. -/
example : JointLogProb (latentNormal.conditional ["z"] [6]) [("x", some 5)] ([] ++ [some 2]) (.ok (some (-(3:ℝ) ^ 2 / 2))) := by
  have hx : latentNormal.Fresh [6] := by
    refine ⟨by simp, ?_⟩
    intro x hx
    simp only [List.mem_singleton] at hx
    subst hx
    refine ⟨by simp [latentNormal, Stmt.defs], ?_⟩
    intro st hst
    simp only [latentNormal, List.mem_cons, List.not_mem_nil, or_false] at hst
    rcases hst with rfl | rfl | rfl <;> simp [Stmt.uses, Link.operand, Atom.node]
  rw [conditional_log_prob_partial latentNormal_wf latentNormal_noTags latentNormal_local latentNormal_nodup latentNormal_all
    ["z"] [6] hx rfl _ [] [some 2] rfl rfl (by rw [latentNormal_names]; simp [ne_xz])]
  have h := (intervene_log_prob_partial latentNormal_wf latentNormal_noTags latentNormal_local latentNormal_nodup latentNormal_all
    [("z", some 2)] [("x", some 5)] [] rfl (by rw [latentNormal_names]; simp [ne_xz]) _).1 latentNormal_do_z
  exact h

/-- The program after `intervene(f, z=2.)`: the draw of `z` is still there, without its name, and `x` uses the constant. -/
example : (latentNormal.intervene [("z", some 2)]).body = [.det (.other fun _ => [some 0, some 0]) [.var 0] [1, 2],
    .draw ⟨0, stdNormal, [.var 1], 3, [], none⟩,
    .draw ⟨0, stdNormal, [.var 2], 4, [(.right .add (.lit (some 2)), 5)], some "x"⟩] := by
  simp [Source.intervene, Source.plant, latentNormal, plantBody, replace, constant, Draw.replace, Link.replace, bind1, List.lookup,
    lastVar, show ("x" == "z") = false by decide +kernel]

/-- A constant is folded: after `intervene(f, z=2.)`, `exp(z)` is the constant `exp 2`. -/
example : (plantBody (fun n => ([("z", (some 2 : F))].lookup n).map .lit) .var
    (.draw ⟨0, stdNormal, [.var 0], 1, [], some "z"⟩ :: .det (.un .exp) [.var 1] [2] :: .tag "e" (.var 2) :: [])).1 =
    [.draw ⟨0, stdNormal, [.var 0], 1, [], none⟩, .tag "e" (.lit (some (Real.exp 2)))] := by
  simp [plantBody, replace, constant, Draw.replace, bind1, bindAll, List.lookup, lastVar, Op.eval, Un.f,
    show ("e" == "z") = false by decide +kernel]

/-- The chain rule for `latentNormal`: `joint_log_prob(f)` is the prior of `z` plus the conditional of `x`. -/
example : ∃ r' ts, JointLogProb (latentNormal.intervene [("z", some 2)]) [("x", some 5)] [] (.ok r') ∧
    (termsOf ["z"] (dict [("z", some (2:ℝ)), ("x", some 5)]) (argEnv [] []) latentNormal.body).mapM id = some ts ∧
    some (-(2:ℝ) ^ 2 / 2 + -(3:ℝ) ^ 2 / 2) = addF (sumF ts) r' :=
  intervene_chain_rule_partial latentNormal_wf latentNormal_noTags latentNormal_local latentNormal_nodup latentNormal_all
    [("z", some 2)] [("x", some 5)] [] rfl (by rw [latentNormal_names]; exact List.Perm.refl _) _ latentNormal_value

end Verif.LogProb.Joint
