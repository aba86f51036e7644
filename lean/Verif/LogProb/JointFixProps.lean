import Verif.LogProb.JointDoLaw
import Verif.LogProb.JointNestProps
import Verif.LogProb.JointLawExample

/-! C83: `joint_log_prob` of `intervene(f, **obs)` and of `conditional(f, names)` is the log density of their
`joint_sample`. -/
namespace Verif.LogProb.Joint

open Verif.Propagate Verif.Inverse Verif.Plate MeasureTheory ProbabilityTheory
open scoped ENNReal

variable {Ω : Type} [MeasurableSpace Ω] {S : Source}

/-- **C83 (intervene).**  For a program as in C81 whose keys come from its key, and samplers that depend on the distribution
and the values of its parameters only: `joint_log_prob(intervene(f, **obs))` returns on every dictionary for the names that
are left; what it returns is the joint log density of `f` at `obs` and the dictionary without the terms of `obs` (the
truncated factorisation), and is the log density of the joint distribution of the values of
`joint_sample(intervene(f, **obs))(key, *args)`.

Missing: named deterministic values (for which it is false, C79). -/
theorem intervene_sample_density_partial (P : Measure Ω) [IsProbabilityMeasure P]
    (samp : Draw → List F → (Key → Ω) → ℝ) (keyOf : ℕ → Key) (h : S.WF) (hT : S.NoTags)
    (hn : S.names.Nodup) (hd : Determined S.args S.body) (hL : S.Local) (hk : S.KeysApart keyOf) (hkk : S.KeysFromKeys)
    (htot : ∀ st ∈ S.body, st.Total) (hs : ∀ st ∈ S.body, st.Sampled (oracle P) samp)
    (hsamp : ∀ (D : Draw) σ, samp (D.replace σ) = samp D)
    (obs : List (String × F)) (hobs : ∀ p ∈ obs, p.2 ≠ none) (args : List ℝ) (ha : args.length = S.args.length) :
    ∃ lp : (Fin (S.intervene obs).names.length → ℝ) → F,
      (∀ y res, JointLogProb (S.intervene obs) ((S.intervene obs).latents y) (args.map some) res ↔ res = .ok (lp y)) ∧
      (∀ y, S.jointWithout (obs.map (·.1)) (dict (obs ++ (S.intervene obs).latents y)) (args.map some) = .ok (lp y)) ∧
      (oracle P).map ((S.intervene obs).samples samp keyOf args)
        = (Measure.pi fun _ => (volume : Measure ℝ)).withDensity fun y => dens (lp y) := by
  have hmem : ∀ (l : List (String × F)) n c, l.lookup n = some c → (n, c) ∈ l := by
    intro l n c
    induction l with
    | nil => simp
    | cons p l ih =>
      intro hc
      rw [List.lookup] at hc
      split at hc
      · rename_i he
        simp only [beq_iff_eq] at he
        simp only [Option.some.injEq] at hc
        exact List.mem_cons.2 (.inl (by rw [he, ← hc]))
      · exact List.mem_cons_of_mem _ (ih hc)
  have := plant_sample_density (extra := []) (obs := fun n => (obs.lookup n).map .lit) P samp keyOf h hT hn hd hL hk hkk htot hs
    hsamp
    (by
      intro n a ha
      obtain ⟨c, -, rfl⟩ := Option.map_eq_some_iff.1 ha
      exact .inl ⟨c, rfl⟩)
    ⟨List.nodup_nil, by simp⟩ (obs.map (·.1))
    (by intro n; rw [← lookup_ne_none]; simp)
    (by
      intro n c hc
      obtain ⟨d, hd, he⟩ := Option.map_eq_some_iff.1 hc
      simp only [Atom.lit.injEq] at he
      exact he ▸ hobs _ (hmem _ _ _ hd))
    args [] ha rfl (fun l => dict (obs ++ l))
    (by
      intro l n a ha
      obtain ⟨c, hc, rfl⟩ := Option.map_eq_some_iff.1 ha
      refine ⟨c, ?_, .inl rfl⟩
      rw [dict_append, dict, hc]; rfl)
    (by
      intro l n hn
      have hc : obs.lookup n = none := by simpa using hn
      rw [dict_append]
      simp [dict, hc])
  rw [List.append_nil] at this
  exact this

/-- **C83 (conditional).**  The same for `conditional(f, names)`, whose trailing arguments are the values of `names`. -/
theorem conditional_sample_density_partial (P : Measure Ω) [IsProbabilityMeasure P]
    (samp : Draw → List F → (Key → Ω) → ℝ) (keyOf : ℕ → Key) (h : S.WF) (hT : S.NoTags)
    (hn : S.names.Nodup) (hd : Determined S.args S.body) (hL : S.Local) (hk : S.KeysApart keyOf) (hkk : S.KeysFromKeys)
    (htot : ∀ st ∈ S.body, st.Total) (hs : ∀ st ∈ S.body, st.Sampled (oracle P) samp)
    (hsamp : ∀ (D : Draw) σ, samp (D.replace σ) = samp D)
    (names : List String) (xs : List Nat) (hx : S.Fresh xs) (hxl : xs.length = names.length) (args vals : List ℝ)
    (ha : args.length = S.args.length) (hv : vals.length = names.length) :
    ∃ lp : (Fin (S.conditional names xs).names.length → ℝ) → F,
      (∀ y res, JointLogProb (S.conditional names xs) ((S.conditional names xs).latents y) ((args ++ vals).map some) res ↔
        res = .ok (lp y)) ∧
      (∀ y, S.jointWithout names (dict ((names.zip (vals.map some)).reverse ++ (S.conditional names xs).latents y))
        (args.map some) = .ok (lp y)) ∧
      (oracle P).map ((S.conditional names xs).samples samp keyOf (args ++ vals))
        = (Measure.pi fun _ => (volume : Measure ℝ)).withDensity fun y => dens (lp y) := by
  have hz := lookup_zip names xs (vals.map some) hxl (by simpa using hv)
  refine plant_sample_density (extra := xs) (obs := fun n => ((names.zip xs).reverse.lookup n).map .var) P samp keyOf h hT hn hd
    hL hk hkk htot hs hsamp ?_ hx names ?_ ?_ args vals ha (by rw [hv, hxl])
    (fun l => dict ((names.zip (vals.map some)).reverse ++ l)) ?_ ?_
  · intro n a ha
    obtain ⟨x, hx1, rfl⟩ := Option.map_eq_some_iff.1 ha
    rcases hz n with ⟨e1, -⟩ | ⟨y, w, e1, -, e3⟩
    · rw [e1] at hx1; simp at hx1
    · rw [e1, Option.some.injEq] at hx1
      exact .inr ⟨x, hx1 ▸ (List.of_mem_zip e3).1, rfl⟩
  · intro n
    have := lookup_ne_none (names.zip xs).reverse n
    rw [List.map_reverse, List.mem_reverse, List.map_fst_zip (by omega)] at this
    rw [← this]
    simp
  · intro n c hc
    obtain ⟨x, -, he⟩ := Option.map_eq_some_iff.1 hc
    simp at he
  · intro l n a ha
    obtain ⟨x, hx1, rfl⟩ := Option.map_eq_some_iff.1 ha
    rcases hz n with ⟨e1, -⟩ | ⟨y, w, e1, e2, e3⟩
    · rw [e1] at hx1; simp at hx1
    · rw [e1, Option.some.injEq] at hx1
      subst hx1
      refine ⟨w, ?_, .inr ⟨y, rfl, e3⟩⟩
      rw [dict_append, dict, e2]
      rfl
  · intro l n hne
    rcases hz n with ⟨-, e2⟩ | ⟨y, w, e1, -, -⟩
    · rw [dict_append, dict, e2]
      rfl
    · rw [e1] at hne; simp at hne

/-- **C83 (intervene, with the calls).** -/
theorem nest_intervene_sample_density_partial (P : Measure Ω) [IsProbabilityMeasure P]
    (samp : Draw → List F → (Key → Ω) → ℝ) (keyOf : ℕ → Key) (h : S.WF) (hT : S.NoTags)
    (hn : S.names.Nodup) (hd : Determined S.args S.body) (hL : S.Local) (hk : S.KeysApart keyOf) (hkk : S.KeysFromKeys)
    (htot : ∀ st ∈ S.body, st.Total) (hs : ∀ st ∈ S.body, st.Sampled (oracle P) samp)
    (hsamp : ∀ (D : Draw) σ, samp (D.replace σ) = samp D)
    (obs : List (String × F)) (hobs : ∀ p ∈ obs, p.2 ≠ none) {rules} (hr : RulesFor rules (S.intervene obs))
    (args : List ℝ) (ha : args.length = S.args.length) :
    ∃ lp : (Fin (S.intervene obs).names.length → ℝ) → F,
      (∀ y res, NestJointLogProb rules (S.intervene obs) ((S.intervene obs).latents y) (args.map some) res ↔ res = .ok (lp y)) ∧
      (oracle P).map ((S.intervene obs).samples samp keyOf args)
        = (Measure.pi fun _ => (volume : Measure ℝ)).withDensity fun y => dens (lp y) := by
  have hp : Plants [] fun n => (obs.lookup n).map (Atom.lit : F → Atom F) := by
    intro n a ha
    obtain ⟨c, -, rfl⟩ := Option.map_eq_some_iff.1 ha
    exact .inl ⟨c, rfl⟩
  obtain ⟨lp, h1, -, h3⟩ := intervene_sample_density_partial P samp keyOf h hT hn hd hL hk hkk htot hs hsamp obs hobs args ha
  refine ⟨lp, fun y res => ?_, h3⟩
  rw [nest_joint_log_prob_partial (S := S.intervene obs) (plant_wf h hp List.nodup_nil (by simp)) (plant_noTags S.body _ hT)
    (plant_local hL hp (by simp)) hr]
  exact h1 y res

/-- **C83 (conditional, with the calls).** -/
theorem nest_conditional_sample_density_partial (P : Measure Ω) [IsProbabilityMeasure P]
    (samp : Draw → List F → (Key → Ω) → ℝ) (keyOf : ℕ → Key) (h : S.WF) (hT : S.NoTags)
    (hn : S.names.Nodup) (hd : Determined S.args S.body) (hL : S.Local) (hk : S.KeysApart keyOf) (hkk : S.KeysFromKeys)
    (htot : ∀ st ∈ S.body, st.Total) (hs : ∀ st ∈ S.body, st.Sampled (oracle P) samp)
    (hsamp : ∀ (D : Draw) σ, samp (D.replace σ) = samp D)
    (names : List String) (xs : List Nat) (hx : S.Fresh xs) (hxl : xs.length = names.length) {rules}
    (hr : RulesFor rules (S.conditional names xs)) (args vals : List ℝ)
    (ha : args.length = S.args.length) (hv : vals.length = names.length) :
    ∃ lp : (Fin (S.conditional names xs).names.length → ℝ) → F,
      (∀ y res, NestJointLogProb rules (S.conditional names xs) ((S.conditional names xs).latents y) ((args ++ vals).map some) res ↔
        res = .ok (lp y)) ∧
      (oracle P).map ((S.conditional names xs).samples samp keyOf (args ++ vals))
        = (Measure.pi fun _ => (volume : Measure ℝ)).withDensity fun y => dens (lp y) := by
  have hp : Plants xs fun n => ((names.zip xs).reverse.lookup n).map (Atom.var : Nat → Atom F) := by
    intro n a ha
    obtain ⟨x, hx1, rfl⟩ := Option.map_eq_some_iff.1 ha
    rcases lookup_zip names xs (vals.map some) hxl (by simpa using hv) n with ⟨e1, -⟩ | ⟨y, w, e1, -, e3⟩
    · rw [e1] at hx1; simp at hx1
    · rw [e1, Option.some.injEq] at hx1
      exact .inr ⟨x, hx1 ▸ (List.of_mem_zip e3).1, rfl⟩
  have hf : ∀ e ∈ xs, e ∉ S.key :: S.args ++ S.body.flatMap Stmt.defs := fun e he => (hx.2 e he).1
  obtain ⟨lp, h1, -, h3⟩ := conditional_sample_density_partial P samp keyOf h hT hn hd hL hk hkk htot hs hsamp names xs hx hxl
    args vals ha hv
  refine ⟨lp, fun y res => ?_, h3⟩
  rw [nest_joint_log_prob_partial (S := S.conditional names xs) (plant_wf h hp hx.1 hf) (plant_noTags S.body _ hT)
    (plant_local hL hp hf) hr]
  exact h1 y res

/-! ### Instances -/

theorem twoNormals_keys : twoNormals.KeysFromKeys := by
  refine ⟨fun x => x = 0 ∨ x = 1 ∨ x = 2, ?_, ?_, ?_⟩
  · intro D hD
    simp only [twoNormals, draws, List.mem_cons, List.not_mem_nil, or_false] at hD
    rcases hD with rfl | rfl
    · exact ⟨1, rfl, by simp⟩
    · exact ⟨2, rfl, by simp⟩
  · intro D hD
    simp only [twoNormals, draws, List.mem_cons, List.not_mem_nil, or_false] at hD
    rcases hD with rfl | rfl <;> simp [lastVar]
  · intro op ins outs hm _
    simp only [twoNormals, List.mem_cons, List.not_mem_nil, or_false, Stmt.det.injEq, reduceCtorEq] at hm
    obtain ⟨-, rfl, -⟩ := hm
    exact ⟨0, by simp, by simp⟩

theorem twoNormals_fresh : twoNormals.Fresh [9] := by
  refine ⟨by simp, ?_⟩
  intro x hx
  simp only [List.mem_singleton] at hx
  subst hx
  refine ⟨by simp [twoNormals, Stmt.defs], ?_⟩
  intro st hst
  simp only [twoNormals, List.mem_cons, List.not_mem_nil, or_false] at hst
  rcases hst with rfl | rfl | rfl <;> simp [Stmt.uses, Atom.node, Link.operand]

/-- All hypotheses hold for `intervene(f, z=2.)`. -/
example : ∃ lp : (Fin (twoNormals.intervene [("z", some 2)]).names.length → ℝ) → F,
      (∀ y res, JointLogProb (twoNormals.intervene [("z", some 2)]) ((twoNormals.intervene [("z", some 2)]).latents y) [] res ↔
        res = .ok (lp y)) ∧
      (∀ y, twoNormals.jointWithout ["z"] (dict ([("z", some 2)] ++ (twoNormals.intervene [("z", some 2)]).latents y)) []
        = .ok (lp y)) ∧
      (oracle (gaussianReal 0 1)).map ((twoNormals.intervene [("z", some 2)]).samples rawSample splitOf [])
        = (Measure.pi fun _ => (volume : Measure ℝ)).withDensity fun y => dens (lp y) :=
  intervene_sample_density_partial (gaussianReal 0 1) rawSample splitOf twoNormals_wf twoNormals_noTags twoNormals_nodup
    twoNormals_determined twoNormals_local twoNormals_apart twoNormals_keys twoNormals_total twoNormals_sampled
    (fun _ _ => rfl) [("z", some 2)] (by simp) [] rfl

/-- The rules of the calls exist. -/
example : (∃ rules, RulesFor rules (twoNormals.intervene [("z", some 2)])) ∧
    ∃ rules, RulesFor rules (twoNormals.conditional ["z"] [9]) :=
  ⟨rules_exist _, rules_exist _⟩

/-- And for `conditional(f, 'z')` with the trailing argument `z = v`. -/
example (v : ℝ) : ∃ lp : (Fin (twoNormals.conditional ["z"] [9]).names.length → ℝ) → F,
      (∀ y res, JointLogProb (twoNormals.conditional ["z"] [9]) ((twoNormals.conditional ["z"] [9]).latents y)
        (([] ++ [v]).map some) res ↔ res = .ok (lp y)) ∧
      (∀ y, twoNormals.jointWithout ["z"]
        (dict ((["z"].zip ([v].map some)).reverse ++ (twoNormals.conditional ["z"] [9]).latents y)) (List.map some [])
        = .ok (lp y)) ∧
      (oracle (gaussianReal 0 1)).map ((twoNormals.conditional ["z"] [9]).samples rawSample splitOf ([] ++ [v]))
        = (Measure.pi fun _ => (volume : Measure ℝ)).withDensity fun y => dens (lp y) :=
  conditional_sample_density_partial (gaussianReal 0 1) rawSample splitOf twoNormals_wf twoNormals_noTags twoNormals_nodup
    twoNormals_determined twoNormals_local twoNormals_apart twoNormals_keys twoNormals_total twoNormals_sampled
    (fun _ _ => rfl) ["z"] [9] twoNormals_fresh rfl [] [v] rfl rfl

theorem eq_zx_false : ("x" == "z") = false := by decide +kernel

/-- What is sampled with `z` fixed to 2: `z` has no value of its own, and `x` is 2 plus the noise of the second key. -/
example (ω : Key → ℝ) : jointSample rawSample splitOf ω (twoNormals.intervene [("z", some 2)]).body
    (startVal (twoNormals.intervene [("z", some 2)]) []) = [("x", ω [.split 2 1] + 2)] := by
  simp [Source.intervene, Source.plant, plantBody, twoNormals, Joint.replace, constant, Draw.replace, Link.replace, bind1,
    List.lookup, eq_zx_false, jointSample, rawSample, splitOf, Draw.keyVar, Joint.pushes, Link.map, Bin.fr, Bin.f, aval, setR,
    lastVar]

/-- With `x` fixed to 5, `z` keeps its distribution: nothing flows backwards. -/
example (ω : Key → ℝ) : jointSample rawSample splitOf ω (twoNormals.intervene [("x", some 5)]).body
    (startVal (twoNormals.intervene [("x", some 5)]) []) = [("z", ω [.split 2 0])] := by
  have : ("z" == "x") = false := by decide +kernel
  simp [Source.intervene, Source.plant, plantBody, twoNormals, Joint.replace, constant, Draw.replace, Link.replace,
    List.lookup, this, jointSample, rawSample, splitOf, Draw.keyVar, Joint.pushes]

/-! ### A random variable that nothing named depends on -/

/-- `twoNormals` with an unnamed random variable of any distribution whose value is not used. -/
noncomputable def withUnused (lp : List F → List F → F) : Source where
  key := 0
  args := []
  body := twoNormals.body ++ [.draw ⟨0, lp, [.var 0], 6, [], none⟩]
  outs := [.var 5]

theorem withUnused_live (lp) {x : ℕ} (h : Live (withUnused lp) (withUnused lp).Named x) : x ≤ 5 := by
  induction h with
  | result x h =>
    obtain ⟨n, h⟩ := h
    simp [withUnused, twoNormals, Stmt.sown, lastVar] at h
    omega
  | operand q hq y hy _ x hx ih =>
    simp [withUnused, twoNormals, Stmt.eqns, linkEqns, Link.eqn] at hq
    rcases hq with rfl | rfl | rfl | rfl | rfl <;> simp [vars, Atom.node] at hx hy <;> omega

theorem withUnused_alive (lp) : (withUnused lp).alive.body = twoNormals.body := by
  have h3 : Live (withUnused lp) (withUnused lp).Named 3 := .result _ ⟨"z", by simp [withUnused, twoNormals, Stmt.sown, lastVar]⟩
  have h5 : Live (withUnused lp) (withUnused lp).Named 5 := .result _ ⟨"x", by simp [withUnused, twoNormals, Stmt.sown, lastVar]⟩
  have h1 : Live (withUnused lp) (withUnused lp).Named 1 := by
    have hl : 1 < ((withUnused lp).body.flatMap Stmt.eqns).length := by
      simp [withUnused, twoNormals, Stmt.eqns, linkEqns]
    refine .operand (((withUnused lp).body.flatMap Stmt.eqns)[1]'hl) (List.getElem_mem _) 3 ?_ h3 1 ?_ <;>
      simp [withUnused, twoNormals, Stmt.eqns, linkEqns, vars, Atom.node]
  have h6 : ¬ Live (withUnused lp) (withUnused lp).Named 6 := fun h => absurd (withUnused_live lp h) (by omega)
  rw [alive_body]
  show List.filter _ (twoNormals.body ++ [_]) = _
  rw [List.filter_append]
  simp [twoNormals, keeps, Stmt.defs, h1, h3, h5, h6]

example (lp : List F → List F → F) : ∃ r : (Fin (withUnused lp).names.length → ℝ) → F,
      (∀ y res, JointLogProb (withUnused lp) ((withUnused lp).latents y) [] res ↔ res = .ok (r y)) ∧
      (oracle (gaussianReal 0 1)).map ((withUnused lp).samples rawSample splitOf [])
        = (Measure.pi fun _ => (volume : Measure ℝ)).withDensity fun y => dens (r y) := by
  have hb := withUnused_alive lp
  refine joint_sample_density_unused_partial (gaussianReal 0 1) rawSample splitOf [] ?_ ?_ ?_ ?_ ?_ ?_ ?_ ?_ rfl
  · refine ⟨?_, ?_, ?_⟩
    · simp [withUnused, twoNormals, Stmt.defs]
    · simp [withUnused, twoNormals, Scoped, Stmt.uses, Stmt.defs, Link.operand, Atom.node]
    · intro st hst
      rcases List.mem_append.1 hst with h | h
      · exact twoNormals_wf.sized st h
      · simp only [List.mem_singleton] at h
        subst h
        trivial
  · intro st hst
    rcases List.mem_append.1 hst with h | h
    · exact twoNormals_noTags st h
    · simp only [List.mem_singleton] at h
      subst h
      simp
  · rw [← alive_names, Source.names, hb]
    exact twoNormals_nodup
  · rw [hb]; exact twoNormals_determined
  · intro st hst x hx D hD
    simp only [withUnused, twoNormals, draws, List.cons_append, List.nil_append, List.mem_cons, List.not_mem_nil, or_false] at hst hD
    rcases hst with rfl | rfl | rfl | rfl <;> rcases hD with rfl | rfl | rfl <;>
      simp [Stmt.uses, Link.operand, Atom.node, Draw.inner] at hx ⊢
    all_goals omega
  · exact keysApart_sublist (S := twoNormals) (by rw [hb]) twoNormals_apart
  · rw [hb]; exact twoNormals_total
  · rw [hb]; exact twoNormals_sampled

end Verif.LogProb.Joint
