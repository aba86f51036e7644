import Verif.LogProb.JointLinks
import Verif.LogProb.JointExamples
import Mathlib.Probability.Distributions.Gaussian.Real

/-! C81: the theorem applied to `z ~ N(0, 1)`, `x = z + N(0, 1)`. -/
namespace Verif.LogProb.Joint

open Verif.Propagate Verif.Inverse Verif.Plate MeasureTheory ProbabilityTheory
open scoped ENNReal

/-- The log density of the standard normal distribution. -/
noncomputable def gaussLp (_ : List F) (vs : List F) : F :=
  (vs.headD none).map fun x => Real.log (gaussianPDFReal 0 1 x)

theorem dens_gaussLp (ps : List F) (x : ℝ) : dens (gaussLp ps [some x]) = gaussianPDF 0 1 x := by
  simp only [gaussLp, List.headD_cons, Option.map_some, dens, gaussianPDF]
  rw [Real.exp_log (gaussianPDFReal_pos 0 1 x one_ne_zero)]

/-- `def f(key): k1, k2 = split(key); z = rv(random_normal, name='z')(k1);
return rv(lambda k: random_normal(k) + z, name='x')(k2)` (cf. transformations.py:97-110). -/
noncomputable def twoNormals : Source where
  key := 0
  args := []
  body := [.det (.other fun _ => [some 0, some 0]) [.var 0] [1, 2],
    .draw ⟨0, gaussLp, [.var 1], 3, [], some "z"⟩,
    .draw ⟨0, gaussLp, [.var 2], 4, [(.right .add (.var 3), 5)], some "x"⟩]
  outs := [.var 5]

/-- The sampler: the bits of a key are a standard normal number. -/
def rawSample (_ : Draw) (_ : List F) (w : Key → ℝ) : ℝ := w []

/-- The keys of `random.split(key)`. -/
def splitOf : ℕ → Key
  | 1 => [.split 2 0]
  | 2 => [.split 2 1]
  | _ => []

theorem rawSample_law (D : Draw) (ps : List F) :
    (oracle (gaussianReal 0 1)).map (rawSample D ps) = volume.withDensity fun x => dens (gaussLp ps [some x]) := by
  simp only [dens_gaussLp]
  rw [← gaussianReal_of_var_ne_zero 0 one_ne_zero]
  exact Measure.infinitePi_map_eval (fun _ : Key => gaussianReal 0 1) []

theorem measurable_rawSample (D : Draw) (ps : List F) : Measurable (rawSample D ps) := measurable_pi_apply []

theorem twoNormals_sampled : ∀ st ∈ twoNormals.body, st.Sampled (oracle (gaussianReal 0 1)) rawSample := by
  intro st hst
  simp only [twoNormals, List.mem_cons, List.not_mem_nil, or_false] at hst
  rcases hst with rfl | rfl | rfl
  · simp only [Stmt.Sampled, Op.eval, setAll]
    exact measurable_setR (measurable_setR measurable_id _ measurable_const) _ measurable_const
  · refine draw_sampled _ _ _ (fun val => ⟨Set.univ, ?_⟩) ?_ ?_ (fun val => measurable_rawSample _ _) (fun val => ?_)
      (fun val => rawSample_law _ _)
    · refine ⟨MeasurableSet.univ, measurable_id, ?_, fun _ _ => trivial, fun x _ => ⟨_, _, rfl⟩, ?_⟩
      · exact Filter.Eventually.of_forall fun x hx => absurd trivial hx
      · exact Filter.Eventually.of_forall fun y _ => ⟨y, trivial, rfl⟩
    · exact (measurable_rawSample _ []).comp measurable_snd
    · simp only [Draw.lp, chainCell, dens_addF, dens_gaussLp]
      exact ((measurable_gaussianPDF 0 1).comp measurable_snd).mul measurable_const
    · simpa only [dens_gaussLp] using measurable_gaussianPDF 0 1
  · have hback : ∀ (val : ℕ → ℝ) (y : ℝ), chainCell (realEnv val) [(Link.right .add (.var 3), 5)] (some (some y, some 0))
        = some (some (y - val 3), some 0) := by
      intro val y
      simp [chainCell, Link.back, Propagate.read, bind2, Bin.gr, Bin.lr, addF]
    have hpush : ∀ (val : ℕ → ℝ) (x : ℝ), pushes val [(Link.right .add (.var 3), 5)] x = x + val 3 := by
      intro val x
      simp [pushes, Link.map, Bin.fr, Bin.f, aval]
    refine draw_sampled _ _ _ (fun val => ⟨Set.univ, ?_⟩) ?_ ?_ (fun val => measurable_rawSample _ _) (fun val => ?_)
      (fun val => rawSample_law _ _)
    · refine ⟨MeasurableSet.univ, ?_, ?_, fun x _ => ?_, fun x _ => ⟨_, _, hback val _⟩, ?_⟩
      · simp only [hpush]
        exact measurable_id.add_const _
      · exact Filter.Eventually.of_forall fun x hx => absurd trivial hx
      · exact ⟨⟨val 3, rfl, by simp [Bin.f], trivial⟩, trivial⟩
      · exact Filter.Eventually.of_forall fun y _ => ⟨y - val 3, trivial, by rw [hpush]; ring⟩
    · simp only [hpush]
      exact ((measurable_rawSample _ []).comp measurable_snd).add ((measurable_pi_apply 3).comp measurable_fst)
    · simp only [Draw.lp, hback, dens_addF, dens_gaussLp]
      exact ((measurable_gaussianPDF 0 1).comp
        (measurable_snd.sub ((measurable_pi_apply 3).comp measurable_fst))).mul measurable_const
    · simpa only [dens_gaussLp] using measurable_gaussianPDF 0 1

theorem twoNormals_wf : twoNormals.WF := by
  refine ⟨?_, ?_, ?_⟩
  · simp [twoNormals, Stmt.defs]
  · simp [twoNormals, Scoped, Stmt.uses, Stmt.defs, Link.operand, Atom.node]
  · intro st hst
    simp only [twoNormals, List.mem_cons, List.not_mem_nil, or_false] at hst
    rcases hst with rfl | rfl | rfl <;> simp [Stmt.Sized, Atom.node, Op.eval]

theorem twoNormals_noTags : twoNormals.NoTags := by
  intro st hst n a
  simp only [twoNormals, List.mem_cons, List.not_mem_nil, or_false] at hst
  rcases hst with rfl | rfl | rfl <;> simp

theorem twoNormals_nodup : twoNormals.names.Nodup := by
  have : twoNormals.names = ["z", "x"] := by simp [Source.names, twoNormals, Stmt.sown]
  rw [this]
  decide +kernel

theorem twoNormals_determined : Determined twoNormals.args twoNormals.body := by
  simp [twoNormals, Determined, Draw.needs, vars, Atom.node, Link.operand]

theorem twoNormals_local : twoNormals.Local := by
  intro st hst x hx D hD
  simp only [twoNormals, draws, List.mem_cons, List.not_mem_nil, or_false] at hst hD
  rcases hst with rfl | rfl | rfl <;> rcases hD with rfl | rfl <;>
    simp [Stmt.uses, Link.operand, Atom.node, Draw.inner] at hx ⊢
  all_goals omega

theorem twoNormals_apart : twoNormals.KeysApart splitOf := by
  have h2 : (draws twoNormals.body).length = 2 := rfl
  have hi : ∀ i : Fin (draws twoNormals.body).length, i = (0 : Fin 2) ∨ i = (1 : Fin 2) := by
    intro i
    have : i.1 = 0 ∨ i.1 = 1 := by omega
    rcases this with h | h
    · exact .inl (Fin.ext h)
    · exact .inr (Fin.ext h)
  refine ⟨fun i => i.1 + 1, fun i => ?_, fun i j hij => ?_⟩
  · rcases hi i with rfl | rfl <;> rfl
  have key : ∀ i : Fin (draws twoNormals.body).length, splitOf (i.1 + 1) = [.split 2 i] := by
    intro i
    rcases hi i with rfl | rfl <;> rfl
  rw [key i, key j]
  intro hs
  have := hs.eq_of_length rfl
  simp only [List.cons.injEq, Step.split.injEq, true_and, and_true] at this
  exact hij (Fin.ext this)

theorem twoNormals_total : ∀ st ∈ twoNormals.body, st.Total := by
  intro st hst
  simp only [twoNormals, List.mem_cons, List.not_mem_nil, or_false] at hst
  rcases hst with rfl | rfl | rfl
  · simp [Stmt.Total, Op.eval]
  · trivial
  · trivial

/-- All hypotheses of the theorem hold, so the distribution of `{'z': …, 'x': …}` has the log density that
`joint_log_prob` returns. -/
theorem twoNormals_density :
    ∃ lp : (Fin (draws twoNormals.body).length → ℝ) → F,
      (∀ y res, JointLogProb twoNormals (named twoNormals y) [] res ↔ res = .ok (lp y)) ∧
      (oracle (gaussianReal 0 1)).map (sampled twoNormals rawSample splitOf [])
        = (Measure.pi fun _ => (volume : Measure ℝ)).withDensity fun y => dens (lp y) :=
  joint_sample_density_partial (gaussianReal 0 1) twoNormals rawSample splitOf [] twoNormals_wf twoNormals_noTags
    twoNormals_nodup twoNormals_determined twoNormals_local twoNormals_apart twoNormals_total twoNormals_sampled rfl

/-- What is sampled: `z` from the first key, `x` from the second. -/
example (ω : Key → ℝ) : jointSample rawSample splitOf ω twoNormals.body (startVal twoNormals [])
    = [("z", ω [.split 2 0]), ("x", ω [.split 2 1] + ω [.split 2 0])] := by
  simp [jointSample, twoNormals, rawSample, splitOf, Draw.keyVar, pushes, Link.map, Bin.fr, Bin.f, aval, setR, lastVar]

end Verif.LogProb.Joint
