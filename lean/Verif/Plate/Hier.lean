import Verif.Plate.Props

/-!
# C80: plates inside programs, and hierarchical models

A plate inside a program does what the plate does on its own. A program that draws global variables and then
opens a plate whose function reads them: given the global variables, the lanes are independent.
-/

namespace Verif.Plate

open MeasureTheory ProbabilityTheory
open scoped ENNReal

variable {Ω : Type}

/-- **C80.** Running a program with a plate in it is running the plate on its own, with the values of the program
as its arguments, and then going on with the value it returns and the names it shows. -/
theorem plate_in_program (axes : String → Option ℕ) (ω : Key → Ω) (x : ℕ) (a : String) (k : ℕ) (body : Prog Ω)
    (r : ℕ) (rest : Prog Ω) (keys : ℕ → Key) (env : ℕ → ℝ) (reaps : List (String × ℝ)) :
    exec axes ω (.plate x a k body r rest) keys env reaps
      = (do
        let out ← callPlate a axes ω body (keys k) env
        let reaps ← merge reaps out.2
        exec axes ω rest keys (set env x (out.1 r)) reaps) := by
  simp only [exec, callPlate]
  cases axes a with
  | none => rfl
  | some i => rfl

/-- **C80.** In particular `plate(plate(f, name=b), name=a)` and a plate over `a` whose function opens a plate
over `b` show the same names and values. -/
theorem plate_of_plate (a b : String) (axes : String → Option ℕ) (ω : Key → Ω) (f : Prog Ω) (r : ℕ) (key : Key)
    (args : ℕ → ℝ) (hn : (namesOf f).Nodup) :
    callPlate a axes ω (.plate r b 0 f r .done) key args
      = (callPlates a b axes ω f key args).map fun out => (set args r (out.1 r), out.2) := by
  unfold callPlate callPlates call
  cases axes a with
  | none => rfl
  | some i =>
    simp only
    rw [plate_in_program]
    cases h : callPlate b axes ω f (.foldIn i :: key) args with
    | error e => rfl
    | ok out =>
      have hnames := (plate_runs_iff b axes ω f (.foldIn i :: key) args).2 out h
      obtain ⟨m1, m2⟩ := merge_ok_iff [] out.2
      obtain ⟨o, ho⟩ := m2.2 ⟨hnames ▸ hn, by simp⟩
      have := m1 o ho
      simp only [List.nil_append] at this
      subst this
      simp only [bind, Except.bind, ho, exec, Except.map]

variable [MeasurableSpace Ω]

/-- A program of two stages, in one lane: `m = g(k1, *args)`, then `plate(f, name=a)(k2, m)` with
`k1, k2 = random.split(key)`. -/
def twoStage (a : String) (axes : String → Option ℕ) (ω : Key → Ω) (g f : Prog Ω) (key : Key)
    (args : ℕ → ℝ) : Except Err ((ℕ → ℝ) × List (String × ℝ)) := do
  let m ← call axes ω g (.split 2 0 :: key) args
  callPlate a axes ω f (.split 2 1 :: key) m.1

/-- The observable result of a call is a measurable function of the generator and of the arguments. -/
theorem values_measurable_args (axes : String → Option ℕ) (f : Prog Ω) (hf : Meas f) (key : Key) :
    Measurable fun z : (ℕ → ℝ) × (Key → Ω) => values (call axes z.2 f key z.1) := by
  rcases exec_measurable axes (fun z : (ℕ → ℝ) × (Key → Ω) => z.2) measurable_snd f hf (fun _ => key)
    (fun z => z.1) measurable_fst [] (by simp) with ⟨e, h⟩ | ⟨env', rs', h1, h2, h⟩
  · have : (fun z : (ℕ → ℝ) × (Key → Ω) => values (call axes z.2 f key z.1))
        = fun _ => (fun _ => 0, fun _ => 0) := by
      funext z
      rw [call, show exec axes z.2 f (fun _ => key) z.1 [] = _ from h z]
      rfl
    rw [this]
    exact measurable_const
  · have : (fun z : (ℕ → ℝ) × (Key → Ω) => values (call axes z.2 f key z.1))
        = fun z => (env' z, fun n => ((inst rs' z).lookup n).getD 0) := by
      funext z
      rw [call, show exec axes z.2 f (fun _ => key) z.1 [] = _ from h z]
      rfl
    rw [this]
    exact h1.prodMk (measurable_pi_lambda _ fun n => measurable_lookup rs' h2 n)

/-- The generators below two unrelated keys are independent. -/
theorem oracle_two (P : Measure Ω) [IsProbabilityMeasure P] (k k' : Key) (h : ¬ k <:+ k') (h' : ¬ k' <:+ k) :
    (oracle P).map (fun ω => ((fun q => ω (q ++ k)), fun q => ω (q ++ k')))
      = (oracle P).prod (oracle P) := by
  have hk : ∀ i j : Bool, i ≠ j → ¬ (bif i then k' else k) <:+ (bif j then k' else k) := by
    rintro (_ | _) (_ | _) hij
    · exact absurd rfl hij
    · exact h
    · exact h'
    · exact absurd rfl hij
  have hg := oracle_graft P (fun b : Bool => bif b then k' else k) hk
  have hm : ∀ b : Bool, Measurable fun (ω : Key → Ω) (q : Key) => ω (q ++ (bif b then k' else k)) := fun b => by
    fun_prop
  have he : ∀ b : Bool, (oracle P).map (fun (ω : Key → Ω) (q : Key) => ω (q ++ (bif b then k' else k)))
      = oracle P := by
    intro b
    have h2 := congrArg (fun μ => μ.map fun x : Bool → Key → Ω => x b) hg
    rw [Measure.infinitePi_map_eval, Measure.map_map (by fun_prop) (by fun_prop)] at h2
    exact h2
  have hi : iIndepFun (fun (b : Bool) (ω : Key → Ω) (q : Key) => ω (q ++ (bif b then k' else k))) (oracle P) := by
    rw [iIndepFun_iff_map_fun_eq_infinitePi_map hm, hg]
    congr 1
    funext b
    exact (he b).symm
  have := hi.indepFun (i := false) (j := true) (by simp)
  rw [indepFun_iff_map_prod_eq_prod_map_map (hm _).aemeasurable (hm _).aemeasurable, he, he] at this
  exact this

theorem split_unrelated (key : Key) (i j : ℕ) (h : i ≠ j) : ¬ Step.split 2 i :: key <:+ Step.split 2 j :: key := by
  intro hs
  have := suffix_same_length hs (by simp)
  simp only [List.cons.injEq, Step.split.injEq, true_and, and_true] at this
  exact h this

/-- **C80.** A hierarchical model, mapped over the axis of its plate with one key: the global variables are drawn
once, with the distribution of `g`; given the global variables, the results of the lanes are independent, each
with the distribution of `f` with these global variables. -/
theorem plate_conditionally_independent (P : Measure Ω) [IsProbabilityMeasure P] (a : String) (n : ℕ)
    (axes : String → Option ℕ) (g f : Prog Ω) (hg : Meas g) (hf : Meas f) (ha : a ∉ axesOf g)
    (hax : ∀ b ∈ axesOf g, axes b ≠ none) (hnd : (namesOf g).Nodup) (key : Key) (args : ℕ → ℝ)
    (S : Set ((ℕ → ℝ) × (String → ℝ))) (hS : MeasurableSet S)
    (T : Fin n → Set ((ℕ → ℝ) × (String → ℝ))) (hT : ∀ i, MeasurableSet (T i)) :
    oracle P {ω | values (call axes ω g (.split 2 0 :: key) args) ∈ S ∧
        ∀ i, values (vmap a n (fun ax k x => twoStage a ax ω g f k x) axes (fun _ => key) (fun _ => args) i)
          ∈ T i}
      = ∫⁻ o in S, ∏ i : Fin n, law P (withAxis axes a i) f o.1 (T i) ∂law P axes g args := by
  classical
  -- the measurable map of the two generators
  have hF : Measurable fun ω : Key → Ω => values (call axes ω g [] args) := values_measurable axes g hg [] args
  have hG : ∀ i : Fin n, Measurable fun z : (ℕ → ℝ) × (Key → Ω) =>
      values (call (withAxis axes a i) z.2 f [Step.foldIn i] z.1) := fun i =>
    values_measurable_args (withAxis axes a i) f hf _
  let E : Set ((Key → Ω) × (Key → Ω)) := {z | values (call axes z.1 g [] args) ∈ S ∧
    ∀ i : Fin n, values (call (withAxis axes a i) z.2 f [Step.foldIn i] (values (call axes z.1 g [] args)).1) ∈ T i}
  have hE : MeasurableSet E := by
    refine (hF.comp measurable_fst hS).inter ?_
    have : ∀ i : Fin n, MeasurableSet {z : (Key → Ω) × (Key → Ω) |
        values (call (withAxis axes a i) z.2 f [Step.foldIn i] (values (call axes z.1 g [] args)).1) ∈ T i} := by
      intro i
      exact ((hG i).comp ((measurable_fst.comp (hF.comp measurable_fst)).prodMk measurable_snd)) (hT i)
    have h2 := MeasurableSet.iInter this
    rw [← Set.setOf_forall] at h2
    exact h2
  have hset : {ω : Key → Ω | values (call axes ω g (.split 2 0 :: key) args) ∈ S ∧
        ∀ i, values (vmap a n (fun ax k x => twoStage a ax ω g f k x) axes (fun _ => key) (fun _ => args) i)
          ∈ T i}
      = (fun ω : Key → Ω => ((fun q => ω (q ++ Step.split 2 0 :: key)),
          fun q => ω (q ++ Step.split 2 1 :: key))) ⁻¹' E := by
    ext ω
    simp only [Set.mem_ofPred_eq, Set.mem_preimage, E]
    have e0 : call axes ω g (.split 2 0 :: key) args
        = call axes (fun q => ω (q ++ Step.split 2 0 :: key)) g [] args := call_graft axes ω g _ args
    rw [e0]
    refine and_congr_right fun _ => forall_congr' fun i => ?_
    have hs : call (withAxis axes a i) ω g (.split 2 0 :: key) args
        = call axes (fun q => ω (q ++ Step.split 2 0 :: key)) g [] args := by
      rw [← e0]
      refine exec_axes _ _ ω g (fun b hb => ?_) _ _ _
      have : b ≠ a := fun h => ha (h ▸ hb)
      simp [withAxis, this]
    obtain ⟨m, hm⟩ := (exec_ok axes (fun q => ω (q ++ Step.split 2 0 :: key)) g (fun _ => []) args []).2.2
      ⟨hax, hnd, by simp⟩
    have hm' : call axes (fun q => ω (q ++ Step.split 2 0 :: key)) g [] args = .ok m := hm
    have h1 : call (withAxis axes a i) ω f (.foldIn i :: .split 2 1 :: key) m.1
        = call (withAxis axes a i) (fun q => ω (q ++ Step.split 2 1 :: key)) f [.foldIn i] m.1 :=
      exec_graft (withAxis axes a i) ω (Step.split 2 1 :: key) f (fun _ => [.foldIn i]) m.1 []
    simp only [vmap, twoStage, hs, hm', bind, Except.bind, callPlate, values]
    rw [show withAxis axes a i a = some (i : ℕ) from by simp [withAxis]]
    simp only [h1]
  rw [hset, ← Measure.map_apply (by fun_prop) hE,
    oracle_two P _ _ (split_unrelated key 0 1 (by simp)) (split_unrelated key 1 0 (by simp)),
    Measure.prod_apply hE]
  -- the inner measure
  have hlaw : ∀ i : Fin n, Measurable fun o : (ℕ → ℝ) × (String → ℝ) =>
      law P (withAxis axes a i) f o.1 (T i) := by
    intro i
    have hj := values_measurable_args (withAxis axes a i) f hf []
    have h1 := measurable_measure_prodMk_left (ν := oracle P) (hj (hT i))
    have h2 : (fun o : (ℕ → ℝ) × (String → ℝ) => law P (withAxis axes a i) f o.1 (T i))
        = fun o => oracle P (Prod.mk o.1 ⁻¹' ((fun z : (ℕ → ℝ) × (Key → Ω) =>
            values (call (withAxis axes a i) z.2 f [] z.1)) ⁻¹' T i)) := by
      funext o
      rw [law, Measure.map_apply (values_measurable _ f hf [] o.1) (hT i)]
      rfl
    rw [h2]
    exact h1.comp measurable_fst
  have hin : ∀ x : Key → Ω, oracle P (Prod.mk x ⁻¹' E)
      = S.indicator (fun o => ∏ i : Fin n, law P (withAxis axes a i) f o.1 (T i))
          (values (call axes x g [] args)) := by
    intro x
    by_cases hx : values (call axes x g [] args) ∈ S
    · rw [Set.indicator_of_mem hx]
      have hj := plate_joint_law P a n axes f hf [] (fun _ => (values (call axes x g [] args)).1)
      have hp : ∀ i : Fin n, IsProbabilityMeasure
          (law P (withAxis axes a i) f (values (call axes x g [] args)).1) := fun i =>
        law_probability P _ f hf _
      rw [← Measure.pi_pi, ← hj, Measure.map_apply ?_ (MeasurableSet.univ_pi hT)]
      · congr 1
        ext y
        simp [E, hx, vmap, callPlate, withAxis]
      · refine measurable_pi_lambda _ fun i => ?_
        have := values_measurable (withAxis axes a i) f hf [Step.foldIn i] (values (call axes x g [] args)).1
        simpa [vmap, callPlate, withAxis] using this
    · rw [Set.indicator_of_notMem hx]
      have : Prod.mk x ⁻¹' E = ∅ := by
        ext y
        simp [E, hx]
      rw [this, measure_empty]
  simp only [hin]
  rw [← lintegral_indicator hS]
  unfold law
  rw [lintegral_map ?_ hF]
  exact (Finset.measurable_prod _ fun i _ => hlaw i).indicator hS

/-- The global mean of the hierarchical model, drawn with the first half of the key, and the observation around
it. -/
def globalMean : Prog ℝ := .draw 0 0 (fun w _ => w) (.tag "mu" 0 .done)

/-- See `globalMean`. -/
def observation : Prog ℝ := .draw 3 0 (fun w e => e 0 + w) (.tag "x" 3 .done)

/-- All the hypotheses hold for a Gaussian mean and observations around it. -/
example : Meas globalMean ∧ Meas observation ∧ "n" ∉ axesOf globalMean ∧
    (∀ b ∈ axesOf globalMean, (fun _ => none : String → Option ℕ) b ≠ none) ∧ (namesOf globalMean).Nodup := by
  refine ⟨⟨measurable_fst, trivial⟩,
    ⟨((measurable_pi_apply 0).comp measurable_snd).add measurable_fst, trivial⟩, ?_, ?_, ?_⟩ <;>
    simp [globalMean, axesOf, namesOf]

/-- One lane of the two stages: the program of `hierarchical`. -/
example (ω : Key → ℝ) (i : Fin 3) :
    (vmap "n" 3 (fun ax k x => twoStage "n" ax ω globalMean observation k x) (fun _ => none)
      (fun _ => [.seed 0]) (fun _ _ => 0) i).map (fun o => o.2)
    = .ok [("x", ω [.split 2 0, .seed 0] + ω [.foldIn i, .split 2 1, .seed 0])] := by
  simp [vmap, twoStage, callPlate, withAxis, call, exec, globalMean, observation, set, bind, Except.bind,
    Except.map]

end Verif.Plate
