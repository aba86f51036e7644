import Mathlib.MeasureTheory.Constructions.Pi
import Mathlib.MeasureTheory.Measure.Lebesgue.Basic
import Mathlib.MeasureTheory.Measure.WithDensity
import Mathlib.Analysis.SpecialFunctions.Log.ENNRealLogExp
import Mathlib.Probability.Distributions.Gaussian.Real

/-!
# Specification vocabulary for the MCMC kernels

These definitions do not mention the model. A random program is a function `step : Ω → S → S` of
its randomness, whose distribution is a measure `P` on `Ω`.
-/

namespace Verif.Mcmc.Spec

open MeasureTheory ProbabilityTheory
open scoped ENNReal

variable {Ω S : Type*} [MeasurableSpace Ω] [MeasurableSpace S]

/-- The measure with (unnormalised) log density `logProb` with respect to `μ`. -/
noncomputable def target (μ : Measure S) (logProb : S → EReal) : Measure S :=
  μ.withDensity (fun x => (logProb x).exp)

/-- Detailed balance: for a chain whose current state is distributed as `π`, the flow from `A` to
`B` is the flow from `B` to `A`. -/
def DetailedBalance (P : Measure Ω) (step : Ω → S → S) (π : Measure S) : Prop :=
  ∀ A B : Set S, MeasurableSet A → MeasurableSet B →
    ∫⁻ x in A, P {ω | step ω x ∈ B} ∂π = ∫⁻ x in B, P {ω | step ω x ∈ A} ∂π

/-- `π` is stationary: the probability of being in `B` after one step from `π` is `π B`. -/
def Stationary (P : Measure Ω) (step : Ω → S → S) (π : Measure S) : Prop :=
  ∀ B : Set S, MeasurableSet B → ∫⁻ x, P {ω | step ω x ∈ B} ∂π = π B

/-- The proposal is symmetric with respect to the reference measure `μ`: the joint distribution of
the current point and the proposed point is exchangeable. -/
def SymmetricProposal (P : Measure Ω) (inner : Ω → S → S) (μ : Measure S) : Prop :=
  ∀ f : S × S → ℝ≥0∞, Measurable f →
    ∫⁻ x, ∫⁻ ω, f (x, inner ω x) ∂P ∂μ = ∫⁻ x, ∫⁻ ω, f (inner ω x, x) ∂P ∂μ

/-- `logq y x` is the log density, with respect to `μ`, of the proposal from `x` at the point
`y`. -/
def HasLogDensity (P : Measure Ω) (inner : Ω → S → S) (μ : Measure S) (logq : S → S → EReal) :
    Prop :=
  ∀ x, ∀ f : S → ℝ≥0∞, Measurable f →
    ∫⁻ ω, f (inner ω x) ∂P = ∫⁻ y, f y * (logq y x).exp ∂μ

/-- The probability of being in `B` after an accept/reject step from `x`: the proposal is `proposal ω`, it is accepted
with probability `min(1, exp(logRatio ω))`, and the state stays at `x` otherwise. -/
noncomputable def acceptLaw (P : Measure Ω) (proposal : Ω → S) (logRatio : Ω → EReal) (x : S) (B : Set S) : ℝ≥0∞ :=
  ∫⁻ ω, (min 1 (logRatio ω).exp * B.indicator 1 (proposal ω) + (1 - min 1 (logRatio ω).exp) * B.indicator 1 x) ∂P

/-- The distribution of `random.uniform`: the uniform distribution on `[0, 1)`. -/
noncomputable def uniform : Measure ℝ := volume.restrict (Set.Ico 0 1)

/-- Independent standard normal coordinates. -/
noncomputable def stdNormal (ι : Type*) [Fintype ι] : Measure (ι → ℝ) :=
  Measure.pi (fun _ => gaussianReal 0 1)

end Verif.Mcmc.Spec
