import Verif.Plate.Model

/-!
# Specification vocabulary for plates

`oracle P` is the distribution of the idealised generator: the randomness of different keys is independent, each
with distribution `P`. `values` is what a run shows: the final values and the reaped values by name.
-/

namespace Verif.Plate

open MeasureTheory ProbabilityTheory

variable {Ω : Type} [MeasurableSpace Ω]

/-- The distribution of an ideal generator. -/
noncomputable def oracle (P : Measure Ω) [IsProbabilityMeasure P] : Measure (Key → Ω) :=
  Measure.infinitePi fun _ => P

/-- What can be observed of a run: its values, and the reaped values by name (0 for a name that is not there,
and everywhere for a run that raised). -/
def values : Except Err ((ℕ → ℝ) × List (String × ℝ)) → (ℕ → ℝ) × (String → ℝ)
  | .ok (env, reaps) => (env, fun n => (reaps.lookup n).getD 0)
  | .error _ => (fun _ => 0, fun _ => 0)

/-- Every computation and every sampler of the program is a measurable function. -/
def Meas : Prog Ω → Prop
  | .done => True
  | .prim _ g rest => Measurable g ∧ Meas rest
  | .split _ _ _ _ rest => Meas rest
  | .foldIn _ _ _ rest => Meas rest
  | .draw _ _ h rest => Measurable (fun z : Ω × (ℕ → ℝ) => h z.1 z.2) ∧ Meas rest
  | .tag _ _ rest => Meas rest
  | .plate _ _ _ body _ rest => Meas body ∧ Meas rest

/-- The axes of the plates of a program. -/
def axesOf : Prog Ω → List String
  | .done => []
  | .prim _ _ rest => axesOf rest
  | .split _ _ _ _ rest => axesOf rest
  | .foldIn _ _ _ rest => axesOf rest
  | .draw _ _ _ rest => axesOf rest
  | .tag _ _ rest => axesOf rest
  | .plate _ a _ body _ rest => a :: axesOf body ++ axesOf rest

/-- The names that a program tags, in order, those inside plates included. -/
def namesOf : Prog Ω → List String
  | .done => []
  | .prim _ _ rest => namesOf rest
  | .split _ _ _ _ rest => namesOf rest
  | .foldIn _ _ _ rest => namesOf rest
  | .draw _ _ _ rest => namesOf rest
  | .tag n _ rest => n :: namesOf rest
  | .plate _ _ _ body _ rest => namesOf body ++ namesOf rest

/-- The distribution of what a program shows when it is called with a fresh key. -/
noncomputable def law (P : Measure Ω) [IsProbabilityMeasure P] (axes : String → Option ℕ) (f : Prog Ω)
    (args : ℕ → ℝ) : Measure ((ℕ → ℝ) × (String → ℝ)) :=
  (oracle P).map fun ω => values (call axes ω f [] args)

end Verif.Plate
