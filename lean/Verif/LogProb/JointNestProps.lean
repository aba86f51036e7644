import Verif.LogProb.JointNestThms
import Verif.LogProb.JointDoExamples

/-! C79, C82: the properties of `joint_log_prob`, `intervene` and `conditional` with the calls. -/
namespace Verif.LogProb.Joint

open Verif.Propagate Verif.Inverse

variable {S : Source}

/-- C79 (value, with the calls).  `joint_log_prob(f)` on values for the names of `f` is the sum of the terms of the random
variables. -/
theorem nest_joint_log_prob_value_partial {rules} (h : S.WF) (hT : S.NoTags) (hL : S.Local) (hr : RulesFor rules S)
    (latents : List (String × F)) (args : List F) (hl : args.length = S.args.length) (hn : S.names.Nodup)
    (hk : (latents.map (·.1)).Perm S.names) (hnm : ∀ D ∈ draws S.body, D.name ≠ none) (res : Except JErr F) :
    NestJointLogProb rules S latents args res ↔ res = S.joint (dict latents) args := by
  rw [nest_joint_log_prob_partial h hT hL hr, joint_log_prob_named_partial h hT latents args hl hn hk hnm]

/-- C79 (density, with the calls). -/
theorem nest_joint_log_prob_density_partial {rules} (h : S.WF) (hT : S.NoTags) (hL : S.Local) (hr : RulesFor rules S)
    (hn : S.names.Nodup) (val : Nat → ℝ)
    (hv : ∀ st ∈ S.body, st.Runs val) (latents : List (String × F)) (hk : (latents.map (·.1)).Perm S.names)
    (hs : ∀ n a, (n, a) ∈ S.body.flatMap Stmt.sown → (n, aval val a) ∈ latents) (r : ℝ)
    (hj : NestJointLogProb rules S latents (S.args.map fun x => some (val x)) (.ok (some r))) :
    (∀ D ∈ draws S.alive.body, D.name ≠ none ∧ (∃ b, D.base val = some b) ∧
      deriv (pushes val D.links) (val D.value) ≠ 0) ∧
      r = ((draws S.alive.body).map fun D => D.logDensity val).sum :=
  joint_log_prob_density_partial h hT hn val hv latents hk hs r
    ((nest_joint_log_prob_partial h hT hL hr latents _ _).1 hj)

/-! ### intervene, conditional -/

variable {obs : String → Option (Atom F)} {extra : List Nat}

theorem plant_uses (hp : Plants extra obs) (body : List Stmt) : ∀ σ, Stands extra σ → ∀ st ∈ (plantBody obs σ body).1, ∀ z ∈ st.uses,
    (∃ st' ∈ body, z ∈ st'.uses) ∨ z ∈ extra := by
  induction body with
  | nil => intro σ _ st hst; simp [plantBody] at hst
  | cons s rest ih =>
    intro σ hσ st hst z hz
    have hrest : ∀ σ', Stands extra σ' → st ∈ (plantBody obs σ' rest).1 → (∃ st' ∈ s :: rest, z ∈ st'.uses) ∨ z ∈ extra := by
      intro σ' h' hm
      rcases ih σ' h' st hm z hz with ⟨st', h1, h2⟩ | h1
      · exact .inl ⟨st', List.mem_cons_of_mem _ h1, h2⟩
      · exact .inr h1
    have main : ∀ as : List (Atom F), (∀ x ∈ vars as, x ∈ s.uses) → z ∈ vars (as.map (replace σ)) →
        (∃ st' ∈ s :: rest, z ∈ st'.uses) ∨ z ∈ extra := by
      intro as ha hz
      exact (vars_replace hσ as hz).imp (fun h => ⟨s, List.mem_cons_self, ha z h⟩) id
    cases s with
    | det op ins outs =>
      simp only [plantBody] at hst
      split at hst
      · exact hrest _ (Stands.bindAll outs _ hσ) hst
      · rcases List.mem_cons.1 hst with rfl | hst
        · exact main ins (fun x hx => hx) hz
        · exact hrest _ hσ hst
    | draw D =>
      simp only [plantBody] at hst
      split at hst
      · rename_i a ha
        rcases List.mem_cons.1 hst with rfl | hst
        · rw [uses_replace] at hz
          exact main _ (fun x hx => hx) hz
        · exact hrest _ (hσ.bind1 _ (hp.bind ha)) hst
      · rcases List.mem_cons.1 hst with rfl | hst
        · rw [draw_same, uses_replace] at hz
          exact main _ (fun x hx => hx) hz
        · exact hrest _ hσ hst
    | tag n a =>
      simp only [plantBody] at hst
      split at hst
      · exact hrest _ hσ hst
      · rcases List.mem_cons.1 hst with rfl | hst
        · exact main [a] (fun x hx => hx) hz
        · exact hrest _ hσ hst

theorem plant_inner (body : List Stmt) : ∀ σ, ∀ D ∈ draws (plantBody obs σ body).1, ∃ E ∈ draws body, D.inner = E.inner := by
  induction body with
  | nil => intro σ D hD; simp [plantBody, draws] at hD
  | cons s rest ih =>
    intro σ D hD
    cases s with
    | det op ins outs =>
      simp only [plantBody] at hD
      split at hD
      · exact ih _ D hD
      · exact ih _ D hD
    | draw E =>
      have hrest : ∀ σ', D ∈ draws (plantBody obs σ' rest).1 → ∃ E' ∈ draws (.draw E :: rest), D.inner = E'.inner := by
        intro σ' h
        obtain ⟨E', h1, h2⟩ := ih σ' D h
        exact ⟨E', by simp [draws, h1], h2⟩
      have hin : ∀ nm, { E.replace σ with name := nm }.inner = E.inner := by
        intro nm; simp [Draw.inner, Draw.replace, Function.comp_def]
      simp only [plantBody] at hD
      split at hD
      · rcases List.mem_cons.1 (by simpa [draws] using hD) with rfl | hD
        · exact ⟨E, by simp [draws], hin _⟩
        · exact hrest _ hD
      · rcases List.mem_cons.1 (by simpa [draws] using hD) with rfl | hD
        · exact ⟨E, by simp [draws], hin _⟩
        · exact hrest _ hD
    | tag n a =>
      simp only [plantBody] at hD
      split at hD
      · exact ih _ D hD
      · exact ih _ D hD

theorem plant_local (hL : S.Local) (hp : Plants extra obs)
    (hf : ∀ e ∈ extra, e ∉ S.key :: S.args ++ S.body.flatMap Stmt.defs) : (S.plant extra obs).Local := by
  intro st hst z hz D hD hi
  obtain ⟨E, h1, h2⟩ := plant_inner _ _ D hD
  rw [h2] at hi
  rcases plant_uses hp S.body _ stands_var st hst z hz with ⟨st', h3, h4⟩ | h3
  · exact hL st' h3 z h4 E h1 hi
  · refine hf z h3 ?_
    simp only [List.cons_append, List.mem_cons, List.mem_append]
    exact .inr (.inr (List.mem_flatMap.2 ⟨_, draws_mem.1 h1, inner_defs hi⟩))

/-- **C82 (intervene, with the calls).** -/
theorem nest_intervene_log_prob_partial {rules} (h : S.WF) (hT : S.NoTags) (hL : S.Local) (hn : S.names.Nodup)
    (hnm : ∀ D ∈ draws S.body, D.name ≠ none) (obs latents : List (String × F)) (hr : RulesFor rules (S.intervene obs))
    (args : List F) (hl : args.length = S.args.length)
    (hk : (latents.map (·.1)).Perm (S.names.filter (· ∉ obs.map (·.1)))) (res : Except JErr F) :
    NestJointLogProb rules (S.intervene obs) latents args res ↔
      res = S.jointWithout (obs.map (·.1)) (dict (obs ++ latents)) args := by
  have hp : Plants [] fun n => (obs.lookup n).map (Atom.lit : F → Atom F) := by
    intro n a ha
    obtain ⟨c, -, rfl⟩ := Option.map_eq_some_iff.1 ha
    exact .inl ⟨c, rfl⟩
  rw [nest_joint_log_prob_partial (S := S.intervene obs) (plant_wf h hp List.nodup_nil (by simp)) (plant_noTags S.body _ hT)
    (plant_local hL hp (by simp)) hr, intervene_log_prob_partial h hT hL hn hnm obs latents args hl hk]

/-- **C82 (conditional, with the calls).** -/
theorem nest_conditional_log_prob_partial {rules} (h : S.WF) (hT : S.NoTags) (hL : S.Local) (hn : S.names.Nodup)
    (hnm : ∀ D ∈ draws S.body, D.name ≠ none) (names : List String) (xs : List Nat) (hx : S.Fresh xs)
    (hxl : xs.length = names.length) (hr : RulesFor rules (S.conditional names xs)) (latents : List (String × F))
    (args vals : List F) (hl : args.length = S.args.length)
    (hv : vals.length = names.length) (hk : (latents.map (·.1)).Perm (S.names.filter (· ∉ names))) (res : Except JErr F) :
    NestJointLogProb rules (S.conditional names xs) latents (args ++ vals) res ↔
      res = S.jointWithout names (dict ((names.zip vals).reverse ++ latents)) args := by
  have hp : Plants xs fun n => ((names.zip xs).reverse.lookup n).map (Atom.var : Nat → Atom F) := by
    intro n a ha
    obtain ⟨x, hx1, rfl⟩ := Option.map_eq_some_iff.1 ha
    rcases lookup_zip names xs vals hxl hv n with ⟨e1, -⟩ | ⟨y, w, e1, -, e3⟩
    · rw [e1] at hx1; simp at hx1
    · rw [e1, Option.some.injEq] at hx1
      exact .inr ⟨x, hx1 ▸ (List.of_mem_zip e3).1, rfl⟩
  have hf : ∀ e ∈ xs, e ∉ S.key :: S.args ++ S.body.flatMap Stmt.defs := fun e he => (hx.2 e he).1
  rw [nest_joint_log_prob_partial (S := S.conditional names xs) (plant_wf h hp hx.1 hf) (plant_noTags S.body _ hT)
    (plant_local hL hp hf) hr, conditional_log_prob_partial h hT hL hn hnm names xs hx hxl latents args vals hl hv hk]

/-- **C81 (with the calls).** -/
theorem nest_joint_sample_density_partial {Ω : Type} [MeasurableSpace Ω] (P : MeasureTheory.Measure Ω)
    [MeasureTheory.IsProbabilityMeasure P] (S : Source) {rules} (hr : RulesFor rules S)
    (samp : Draw → List F → (Verif.Plate.Key → Ω) → ℝ) (keyOf : ℕ → Verif.Plate.Key) (args : List ℝ) (h : S.WF) (hT : S.NoTags)
    (hn : S.names.Nodup) (hd : Determined S.args S.body) (hl : S.Local) (hk : S.KeysApart keyOf)
    (htot : ∀ st ∈ S.body, st.Total) (hs : ∀ st ∈ S.body, st.Sampled (Verif.Plate.oracle P) samp)
    (ha : args.length = S.args.length) :
    ∃ lp : (Fin (draws S.body).length → ℝ) → F,
      (∀ y res, NestJointLogProb rules S (named S y) (args.map some) res ↔ res = .ok (lp y)) ∧
      (Verif.Plate.oracle P).map (sampled S samp keyOf args)
        = (MeasureTheory.Measure.pi fun _ => (MeasureTheory.volume : MeasureTheory.Measure ℝ)).withDensity fun y => dens (lp y) := by
  obtain ⟨lp, h1, h2⟩ := joint_sample_density_partial P S samp keyOf args h hT hn hd hl hk htot hs ha
  exact ⟨lp, fun y res => (nest_joint_log_prob_partial h hT hl hr _ _ _).trans (h1 y res), h2⟩

/-! ### Instances -/

/-- `joint_log_prob` of `latentNormal` with `nest` around both random variables. -/
example : ∃ rules, NestJointLogProb rules latentNormal [("z", some 2), ("x", some 5)] []
    (.ok (some (-(2:ℝ) ^ 2 / 2 + -(3:ℝ) ^ 2 / 2))) := by
  obtain ⟨rules, hr⟩ := rules_exist latentNormal
  exact ⟨rules, (nest_joint_log_prob_partial latentNormal_wf latentNormal_noTags latentNormal_local hr _ _ _).2 latentNormal_value⟩

/-- The jaxpr has two calls. -/
example : ((latentNormal.nprog []).eqns.map fun q => q.2) =
    [([.var 0], [.var 1, .var 2]), ([.var 1], [.var 3]), ([.var 2, .var 3], [.var 5])] := by
  have e : (latentNormal.results []).filterMap Atom.node = [5, 3] := by
    simp [Source.results, latentNormal, Stmt.sown, sortByKey, lastVar, List.mergeSort, List.MergeSort.Internal.splitInTwo,
      show ¬ ("z" : String) ≤ "x" by decide +kernel, Atom.node]
  simp only [Source.nprog, e]
  simp [latentNormal, Stmt.calls, prune, Stmt.eqns, Draw.invars, Link.operand, Atom.node, lastVar, List.dedup, List.pwFilter]

end Verif.LogProb.Joint
