import Verif.LogProb.JointThms

/-! C79: instances of the theorems, and where `joint_log_prob` is not the joint density. -/
namespace Verif.LogProb.Joint

open Verif.Propagate Verif.Inverse

/-- A standard normal log density up to its constant. -/
noncomputable def stdNormal (_ : List F) (vs : List F) : F := (vs.headD none).map fun x => -x ^ 2 / 2

/-- `def f(key): k1, k2 = split(key); z = rv(random_normal, name='z')(k1);
return rv(lambda k: random_normal(k) + z, name='x')(k2)` (cf. transformations.py:97-110). -/
noncomputable def latentNormal : Source where
  key := 0
  args := []
  body := [.det (.other fun _ => [some 0, some 0]) [.var 0] [1, 2],
    .draw ⟨0, stdNormal, [.var 1], 3, [], some "z"⟩,
    .draw ⟨0, stdNormal, [.var 2], 4, [(.right .add (.var 3), 5)], some "x"⟩]
  outs := [.var 5]

theorem latentNormal_wf : latentNormal.WF where
  once := by simp [latentNormal, Stmt.defs]
  order := by simp [latentNormal, Scoped, Stmt.uses, Stmt.defs, Link.operand, Atom.node]
  sized := by
    intro st hst
    simp only [latentNormal, List.mem_cons, List.not_mem_nil, or_false] at hst
    rcases hst with rfl | rfl | rfl <;> simp [Stmt.Sized, Atom.node, Op.eval]

theorem latentNormal_noTags : latentNormal.NoTags := by
  intro st hst n a
  simp only [latentNormal, List.mem_cons, List.not_mem_nil, or_false] at hst
  rcases hst with rfl | rfl | rfl <;> simp

theorem latentNormal_names : latentNormal.names = ["z", "x"] := by
  simp [Source.names, latentNormal, Stmt.sown]

theorem latentNormal_nodup : latentNormal.names.Nodup := by rw [latentNormal_names]; decide +kernel

/-- `joint_log_prob(f)({'z': 2., 'x': 5.})` is `logp(2) + logp(5 - 2)`. -/
theorem latentNormal_value : JointLogProb latentNormal [("z", some 2), ("x", some 5)] [] (.ok (some (-(2:ℝ) ^ 2 / 2 + -(3:ℝ) ^ 2 / 2))) := by
  rw [joint_log_prob_named_partial latentNormal_wf latentNormal_noTags _ [] rfl latentNormal_nodup
    (by rw [latentNormal_names]; exact List.Perm.refl _) (by simp [draws, latentNormal])]
  have e1 : dict [("z", some (2:ℝ)), ("x", some 5)] "z" = some (some 2) := by simp [dict, List.lookup]
  have e2 : dict [("z", some (2:ℝ)), ("x", some 5)] "x" = some (some 5) := by
    rw [dict, List.lookup, show ("x" == "z") = false by decide +kernel]
    simp [List.lookup]
  simp [Source.joint, latentNormal, terms, Draw.term, Draw.given, chainCell, Link.back, Stmt.run, putChain, put, e1, e2,
    Propagate.read, argEnv, putAll, bind2, Bin.gr, Bin.lr, addF, stdNormal, sumF]
  norm_num

/-- The execution with `z = 2`, `x = 3 + 2` meets the hypotheses of the density theorem. -/
example : ∃ val : Nat → ℝ, (∀ st ∈ latentNormal.body, st.Runs val) ∧
    (∀ n a, (n, a) ∈ latentNormal.body.flatMap Stmt.sown → (n, aval val a) ∈ [("z", some (2:ℝ)), ("x", some 5)]) := by
  refine ⟨fun i => if i = 3 then 2 else if i = 4 then 3 else if i = 5 then 5 else 0, ?_, ?_⟩
  · intro st hst
    simp only [latentNormal, List.mem_cons, List.not_mem_nil, or_false] at hst
    rcases hst with rfl | rfl | rfl
    · simp [Stmt.Runs, Op.eval]
    · simp [Stmt.Runs, LinksRun]
    · refine ⟨⟨2, by simp [aval], by simp [Bin.f]; norm_num, trivial⟩, trivial⟩
  · intro n a ha
    simp only [latentNormal, Stmt.sown, List.flatMap_cons, List.flatMap_nil, List.nil_append, List.cons_append, List.mem_cons,
      List.not_mem_nil, or_false, Prod.mk.injEq, lastVar] at ha
    rcases ha with ⟨rfl, rfl⟩ | ⟨rfl, rfl⟩ <;> simp [aval]

/-- Its variables are determined, so the error theorem says that there is no error. -/
example : Determined latentNormal.args latentNormal.body := by
  simp [latentNormal, Determined, Draw.needs, vars, Atom.node, Link.operand]

/-- Without the name of `z` the program is not determined: `z` is then only known from the key. -/
example : ¬ Determined [] [.draw ⟨0, stdNormal, [.var 1], 3, [], none⟩,
    .draw ⟨0, stdNormal, [.var 2], 4, [(.right .add (.var 3), 5)], some "x"⟩] := by
  simp [Determined]

/-- The output of the program is its named value `x`. -/
example : List.Forall₂ (OutIs latentNormal [("z", some 2), ("x", some 5)] []) latentNormal.outs [some 5] := by
  refine .cons (.inr (.inr ⟨"x", 5, rfl, ?_, by simp⟩)) .nil
  simp [latentNormal, Stmt.sown, lastVar]

/-! ### A named deterministic value -/

/-- `def f(key): z = rv(random_normal, name='z')(key); return rv(3. * z, name='y')`. -/
noncomputable def scaledTag (d : List F → List F → F) : Source where
  key := 0
  args := []
  body := [.draw ⟨0, d, [.var 0], 1, [], some "z"⟩, .det (.bin .mul) [.lit (some 3), .var 1] [2], .tag "y" (.var 2)]
  outs := [.var 2]

theorem scaledTag_outs (d) : (scaledTag d).prog [] = ⟨[.var 0], [.var 2, .var 1],
    [(.rv 0 d, [.var 0], [.var 1]), (.det (.bin .mul), [.lit (some 3), .var 1], [.var 2])]⟩ := by
  have : sortByKey ((scaledTag d).body.flatMap Stmt.sown) = [("y", .var 2), ("z", .var 1)] := by
    simp only [scaledTag, Stmt.sown, List.flatMap_cons, List.flatMap_nil, List.nil_append, List.cons_append, lastVar, sortByKey]
    rw [List.mergeSort]
    simp [show ¬ (("z" : String) ≤ "y") by decide +kernel]
  rw [Source.prog, Source.results, this]
  simp [scaledTag, Stmt.eqns, linkEqns, prune, Atom.node]

/-- C79 is false for programs that name deterministic values: the only random variable of `scaledTag` is `z`, with log density
`d`, and `y = 3 * z`; but `joint_log_prob(f)({'z': 1., 'y': 3.})` is `d(1) - log 3`, because the rule of the binary operation
overwrites the known right operand with a value that has a non-zero ILDJ. -/
theorem joint_log_prob_tagged_wrong (d : List F → List F → F) (a : ℝ) (hd : d [] [some 1] = some a) :
    JointLogProb (scaledTag d) [("z", some 1), ("y", some 3)] [] (.ok (some (a - Real.log 3))) ∧ a - Real.log 3 ≠ a := by
  refine ⟨?_, ?_⟩
  · have hn : (scaledTag d).names.Nodup := by
      have : (scaledTag d).names = ["z", "y"] := by simp [Source.names, scaledTag, Stmt.sown]
      rw [this]; decide +kernel
    have hl : sortByKey [("z", (some 1 : F)), ("y", some 3)] = [("y", some 3), ("z", some 1)] := by
      rw [sortByKey, List.mergeSort]
      simp [show ¬ (("z" : String) ≤ "y") by decide +kernel]
    simp only [JointLogProb, Run, hn, not_true_eq_false, if_false, scaledTag_outs, hl]
    rw [if_neg (by simp [scaledTag])]
    refine ⟨some (some (a - Real.log 3)), ?_, rfl⟩
    set P : LProg := ⟨[.var 0], [.var 2, .var 1],
      [(.rv 0 d, [.var 0], [.var 1]), (.det (.bin .mul), [.lit (some 3), .var 1], [.var 2])]⟩ with hP
    let E : ICell → Env ICell := fun c x => if x = 1 then c else if x = 2 then some (some 3, some 0) else none
    have hinit : initEnv iOps P.jaxpr [] [none] [some (some 3, some 0), some (some 1, some 0)] = E (some (some 1, some 0)) := by
      funext x
      simp only [initEnv, hP, LProg.jaxpr, List.map_cons, List.map_nil, List.flatMap_cons, List.flatMap_nil, writeAll, write,
        iOps, List.cons_append, List.nil_append, Atom.node, Propagate.read, E, List.append_nil]
      by_cases h1 : x = 1
      · simp [h1]
      · by_cases h2 : x = 2 <;> by_cases h0 : x = 0 <;> simp [h0, h1, h2]
    have hmul : exec iOps (E (some (some 1, some 0))) ⟨[.lit (some 3), .var 1], [.var 2], (LOp.det (.bin .mul)).rule⟩ =
        (E (some (some 1, some (-Real.log 3))), [some (some 3, some 0), some (some 1, some (-Real.log 3))],
          [some (some 3, some 0)], none) := by
      have hr : (LOp.det (.bin .mul)).rule [some (some 3, some 0), some (some 1, some 0)] [some (some 3, some 0)] =
          ([some (some 3, some 0), some (some 1, some (-Real.log 3))], [some (some 3, some 0)], none) := by
        have h3 : (0:ℝ) < |3| := by norm_num
        simp [LOp.rule, Op.rule, binRule, bind2, Bin.gl, Bin.ll, npLog, addF]
      simp only [exec, List.map_cons, List.map_nil, Propagate.read, show iOps.new (some 3) = some (some 3, some 0) from rfl,
        show E (some (some 1, some 0)) 1 = some (some 1, some 0) from rfl,
        show E (some (some 1, some 0)) 2 = some (some 3, some 0) from rfl, hr]
      simp only [writeAll, write, iOps, Option.isSome_some, if_true, Prod.mk.injEq, and_true, true_and]
      funext x
      by_cases h1 : x = 1
      · simp [h1, E]
      · by_cases h2 : x = 2 <;> simp [h1, h2, E]
    have hrv : exec iOps (E (some (some 1, some (-Real.log 3)))) ⟨[.var 0], [.var 1], (LOp.rv 0 d).rule⟩ =
        (E (some (some 1, some (-Real.log 3))), [none], [some (some 1, some (-Real.log 3))], some (some a)) := by
      have hr : (LOp.rv 0 d).rule [none] [some (some 1, some (-Real.log 3))] =
          ([none], [some (some 1, some (-Real.log 3))], some (some a)) := by
        simp [LOp.rule, rvRule, hd]
      simp only [exec, List.map_cons, List.map_nil, Propagate.read,
        show E (some (some 1, some (-Real.log 3))) 1 = some (some 1, some (-Real.log 3)) from rfl,
        show E (some (some 1, some (-Real.log 3))) 0 = none from rfl, hr]
      simp only [writeAll, write, iOps, Option.isSome_some, if_true, Prod.mk.injEq, and_true]
      refine ⟨?_, by simp [E]⟩
      funext x
      by_cases h1 : x = 1
      · simp [h1, E]
      · by_cases h0 : x = 0 <;> simp [h1, h0, E]
    refine ⟨⟨E (some (some 1, some 0)), [1, 0], fun _ => none⟩, _, ⟨hinit.symm, ⟨by simp, ?_⟩, fun _ => rfl⟩,
      .tail _ _ _ (.tail _ _ _ (.refl _) (.mk _ 1 [0] ⟨[.lit (some 3), .var 1], [.var 2], (LOp.det (.bin .mul)).rule⟩ [0]
        rfl rfl ?_)) (.mk _ 0 [] ⟨[.var 0], [.var 1], (LOp.rv 0 d).rule⟩ [] rfl rfl ?_), rfl, ?_⟩
    · intro e
      simp only [List.mem_cons, List.not_mem_nil, or_false]
      constructor
      · rintro (rfl | rfl)
        · exact ⟨1, by simp [hP, LProg.jaxpr, Atom.node], _, rfl, by simp [Atom.node]⟩
        · exact ⟨1, by simp [hP, LProg.jaxpr, Atom.node], _, rfl, by simp [Atom.node]⟩
      · rintro ⟨x, -, q, hq, -⟩
        have : e < 2 := (List.getElem?_eq_some_iff.1 hq).1
        omega
    · simp only [hmul]
      have : progressed iOps [Atom.lit (some (3:ℝ)), .var 1, .var 2]
          [some (some 3, some 0), some (some 1, some 0), some (some 3, some 0)]
          [some (some 3, some 0), some (some 1, some (-Real.log 3)), some (some 3, some 0)] = [] := by
        simp [progressed, iOps]
      exact this ▸ .nil _
    · simp only [hmul, hrv]
      have : progressed iOps [Atom.var 0, (.var 1 : Atom F)] [none, some (some 1, some (-Real.log 3))]
          [none, some (some 1, some (-Real.log 3))] = [] := by
        simp [progressed, iOps]
      exact this ▸ .nil _
    · simp only [hmul, hrv]
      simp [lpFinish, hP, lpReduce, ildjSum, Propagate.read, E, addF]
      ring
  · have : (0:ℝ) < Real.log 3 := Real.log_pos (by norm_num)
    linarith

/-- C79: the names of the given values are not compared with those of the program; only the order of the names matters. -/
theorem joint_log_prob_names_unchecked (S : Source) (latents latents' : List (String × F)) (args : List F)
    (h : (sortByKey latents).map (·.2) = (sortByKey latents').map (·.2)) (res : Except JErr F) :
    JointLogProb S latents args res ↔ JointLogProb S latents' args res := by
  have hl : latents.length = latents'.length := by
    have := congrArg List.length h
    simpa [(sortByKey_perm _).length_eq] using this
  simp [JointLogProb, Run, h, hl]

/-- `joint_log_prob(f)({'u': 5., 'v': 2.})` is accepted and is the value at `x = 5`, `z = 2`. -/
example : JointLogProb latentNormal [("v", some 2), ("u", some 5)] [] (.ok (some (-(2:ℝ) ^ 2 / 2 + -(3:ℝ) ^ 2 / 2))) := by
  rw [joint_log_prob_names_unchecked latentNormal _ [("z", some 2), ("x", some 5)]]
  · exact latentNormal_value
  · have h1 : sortByKey [("v", (some 2 : F)), ("u", some 5)] = [("u", some 5), ("v", some 2)] := by
      rw [sortByKey, List.mergeSort]
      simp [show ¬ (("v" : String) ≤ "u") by decide +kernel]
    have h2 : sortByKey [("z", (some 2 : F)), ("x", some 5)] = [("x", some 5), ("z", some 2)] := by
      rw [sortByKey, List.mergeSort]
      simp [show ¬ (("z" : String) ≤ "x") by decide +kernel]
    rw [h1, h2]; rfl

/-! ### Random variables that no named value depends on -/

/-- `def f(key): k1, k2 = split(key); z = rv(random_normal, name='z')(k1); return rv(lambda k: random_normal(k) + z)(k2)`: the
second random variable is not named. -/
noncomputable def unnamedOut : Source where
  key := 0
  args := []
  body := [.det (.other fun _ => [some 0, some 0]) [.var 0] [1, 2],
    .draw ⟨0, stdNormal, [.var 1], 3, [], some "z"⟩,
    .draw ⟨0, stdNormal, [.var 2], 4, [(.right .add (.var 3), 5)], none⟩]
  outs := [.var 5]

theorem unnamedOut_wf : unnamedOut.WF where
  once := by simp [unnamedOut, Stmt.defs]
  order := by simp [unnamedOut, Scoped, Stmt.uses, Stmt.defs, Link.operand, Atom.node]
  sized := by
    intro st hst
    simp only [unnamedOut, List.mem_cons, List.not_mem_nil, or_false] at hst
    rcases hst with rfl | rfl | rfl <;> simp [Stmt.Sized, Atom.node, Op.eval]

theorem unnamedOut_noTags : unnamedOut.NoTags := by
  intro st hst n a
  simp only [unnamedOut, List.mem_cons, List.not_mem_nil, or_false] at hst
  rcases hst with rfl | rfl | rfl <;> simp

theorem unnamedOut_live (x : Nat) : Live unnamedOut unnamedOut.Named x ↔ x = 0 ∨ x = 1 ∨ x = 3 := by
  constructor
  · intro h
    induction h with
    | result x h =>
      obtain ⟨n, h⟩ := h
      simp [unnamedOut, Stmt.sown, lastVar] at h
      omega
    | operand q hq y hy _ x hx ih =>
      simp only [unnamedOut, List.flatMap_cons, List.flatMap_nil, Stmt.eqns, linkEqns, List.mem_append, List.mem_cons,
        List.not_mem_nil, or_false, List.append_nil] at hq
      rcases hq with rfl | rfl | rfl | rfl <;> simp [vars, Link.eqn, Atom.node] at hx hy <;> omega
  · have h3 : Live unnamedOut unnamedOut.Named 3 := .result _ ⟨"z", by simp [unnamedOut, Stmt.sown, lastVar]⟩
    have h1 : Live unnamedOut unnamedOut.Named 1 :=
      .operand (.rv 0 stdNormal, [.var 1], [.var 3]) (by simp [unnamedOut, Stmt.eqns, linkEqns]) 3 (by simp [vars, Atom.node]) h3 1
        (by simp [vars, Atom.node])
    rintro (rfl | rfl | rfl)
    · exact .operand (.det (.other fun _ => [some 0, some 0]), [.var 0], [.var 1, .var 2])
        (by simp [unnamedOut, Stmt.eqns, linkEqns]) 1 (by simp [vars, Atom.node]) h1 0 (by simp [vars, Atom.node])
    · exact h1
    · exact h3

theorem unnamedOut_alive : unnamedOut.alive.body = [.det (.other fun _ => [some 0, some 0]) [.var 0] [1, 2],
    .draw ⟨0, stdNormal, [.var 1], 3, [], some "z"⟩] := by
  simp only [Source.alive, unnamedOut_live]
  simp [unnamedOut, Stmt.defs]

/-- `joint_log_prob(f)({'z': 2.})` is `logp(2)`: the unnamed random variable is not part of the joint density of the named
ones, and is no error either. -/
example : JointLogProb unnamedOut [("z", some 2)] [] (.ok (some (-(2:ℝ) ^ 2 / 2))) := by
  rw [joint_log_prob_value_partial unnamedOut_wf unnamedOut_noTags _ [] rfl (by simp [Source.names, unnamedOut, Stmt.sown])
    (by simp [Source.names, unnamedOut, Stmt.sown])]
  simp only [Source.joint, unnamedOut_alive]
  have e1 : dict [("z", some (2:ℝ))] "z" = some (some 2) := by simp [dict, List.lookup]
  simp [terms, Draw.term, Draw.given, chainCell, Stmt.run, e1, Propagate.read, addF, stdNormal, sumF]

/-- If instead the first is unnamed, a named value depends on it: `ValueError`. -/
noncomputable def unnamedIn : Source :=
  { unnamedOut with body := [.det (.other fun _ => [some 0, some 0]) [.var 0] [1, 2],
      .draw ⟨0, stdNormal, [.var 1], 3, [], none⟩,
      .draw ⟨0, stdNormal, [.var 2], 4, [(.right .add (.var 3), 5)], some "x"⟩] }

example (v : F) : JointLogProb unnamedIn [("x", v)] [] (.error .cannot) := by
  have wf : unnamedIn.WF := by
    refine ⟨?_, ?_, ?_⟩
    · simp [unnamedIn, unnamedOut, Stmt.defs]
    · simp [unnamedIn, Scoped, Stmt.uses, Stmt.defs, Link.operand, Atom.node]
    · intro st hst
      simp only [unnamedIn, List.mem_cons, List.not_mem_nil, or_false] at hst
      rcases hst with rfl | rfl | rfl <;> simp [Stmt.Sized, Atom.node, Op.eval]
  have nt : unnamedIn.NoTags := by
    intro st hst n a
    simp only [unnamedIn, List.mem_cons, List.not_mem_nil, or_false] at hst
    rcases hst with rfl | rfl | rfl <;> simp
  rw [joint_log_prob_cannot_partial wf nt _ [] rfl (by simp [Source.names, unnamedIn, Stmt.sown])
    (by simp [Source.names, unnamedIn, Stmt.sown])]
  have h5 : Live unnamedIn unnamedIn.Named 5 := .result _ ⟨"x", by simp [unnamedIn, Stmt.sown, lastVar]⟩
  have h3 : Live unnamedIn unnamedIn.Named 3 :=
    .operand (.det (.bin .add), [.var 4, .var 3], [.var 5]) (by simp [unnamedIn, Stmt.eqns, linkEqns, Link.eqn]) 5 (by simp [vars, Atom.node]) h5 3
        (by simp [vars, Atom.node])
  have h4 : Live unnamedIn unnamedIn.Named 1 :=
    .operand (.rv 0 stdNormal, [.var 1], [.var 3]) (by simp [unnamedIn, Stmt.eqns, linkEqns]) 3 (by simp [vars, Atom.node]) h3 1
        (by simp [vars, Atom.node])
  have : unnamedIn.alive.body = unnamedIn.body := by
    simp only [Source.alive]
    rw [List.filter_eq_self]
    intro st hst
    simp only [unnamedIn, List.mem_cons, List.not_mem_nil, or_false] at hst
    rcases hst with rfl | rfl | rfl
    · simp [Stmt.defs, h4]
    · simp [Stmt.defs, h3]
    · simp [Stmt.defs, h5]
  rw [this]
  simp [unnamedIn, Determined]

end Verif.LogProb.Joint
