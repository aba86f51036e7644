import Verif.Mcmc.Keyed
import Verif.Mcmc.Spec
import Verif.Plate.Spec

/-!
# Specification vocabulary for keyed kernels
-/

namespace Verif.Mcmc.Keyed

open MeasureTheory ProbabilityTheory
open Verif.Plate (Key oracle)

variable {Ω S : Type} [MeasurableSpace Ω]

/-- Given a fresh key, the samplers return independent standard normal numbers and a uniform number. -/
structure Exact (P : Measure Ω) (smp : Samplers Ω) : Prop where
  normal : ∀ n, MeasurePreserving (smp.normal n) P (Spec.stdNormal (Fin n))
  uniform : MeasurePreserving smp.uniform P Spec.uniform

/-- The program draws only from the key it is given: its result depends on the randomness of that key and of the
keys split from it, and not on which key it is. -/
def DrawsFromKey (f : Program Ω S) : Prop :=
  ∀ ω key state, f ω key state = f (fun q => ω (q ++ key)) [] state

/-- The state after each of `n` steps of `step`, from `s`, with the randomness `ws` of each step. -/
def trajectory {W : Type} (step : W → S → S) : List W → S → List S
  | [], _ => []
  | w :: ws, s => step w s :: trajectory step ws (step w s)

/-- Position `i` of a list of states, as a total function. -/
def nth (states : List S) (i : ℕ) (default : S) : S := states.getD i default

end Verif.Mcmc.Keyed
