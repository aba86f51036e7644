import Verif.Mcmc.PosteriorProps
import Verif.LogProb.JointLawExample

/-! C87: the theorem applied to `z ~ N(0, 1)`, `x = z + N(0, 1)` with `x` observed. -/
namespace Verif.Mcmc.Keyed

open Verif.LogProb.Joint Verif.Plate Verif.Inverse Verif.Mcmc.Spec Verif.Mcmc.Bayes MeasureTheory ProbabilityTheory

/-- `x` is the observation, `z` the state of the chain: an array with one number. -/
def observeX : Unit ⊕ (Σ i : Fin 1, Fin ((fun _ => 1 : Fin 1 → ℕ) i)) ≃ Fin (draws twoNormals.body).length where
  toFun s := match s with | .inl _ => (1 : Fin 2) | .inr _ => (0 : Fin 2)
  invFun i := if i.1 = 1 then .inl () else .inr ⟨0, 0⟩
  left_inv s := by
    rcases s with u | ⟨j, k⟩
    · rfl
    · have hj : j = 0 := Subsingleton.elim _ _
      subst hj
      have hk : k = 0 := Subsingleton.elim (α := Fin 1) _ _
      subst hk
      rfl
  right_inv i := by
    have : i = (0 : Fin 2) ∨ i = (1 : Fin 2) := by
      have : i.1 = 0 ∨ i.1 = 1 := by
        have := i.2
        have h2 : (draws twoNormals.body).length = 2 := rfl
        omega
      rcases this with h | h
      · exact .inl (Fin.ext h)
      · exact .inr (Fin.ext h)
    rcases this with rfl | rfl <;> rfl

/-- The hypotheses of `posterior_chain_partial` hold for the program `z ~ N(0, 1)`, `x = z + N(0, 1)`. -/
theorem twoNormals_posterior : ∃ lp : (Fin (draws twoNormals.body).length → ℝ) → F,
    (∀ y res, JointLogProb twoNormals (named twoNormals y) [] res ↔ res = .ok (lp y)) ∧
    ∀ᵐ x ∂(oracle (gaussianReal 0 1)).map fun ω o => sampled twoNormals rawSample splitOf [] ω (observeX (.inl o)),
      ∀ key, Stationary (oracle streamLaw)
        (fun ω s => nth (sampleChain (C := Unit) (metropolis streams (posteriorLogProb observeX lp x) (randomWalk streams 2)) 12 [] ω key s) 9 s)
        (condDistrib (fun ω j => sampled twoNormals rawSample splitOf [] ω (observeX (.inr j)))
          (fun ω o => sampled twoNormals rawSample splitOf [] ω (observeX (.inl o))) (oracle (gaussianReal 0 1)) x) := by
  obtain ⟨lp, h1, h2⟩ := posterior_chain_partial (C := Unit) (gaussianReal 0 1) twoNormals rawSample splitOf [] twoNormals_wf
    twoNormals_noTags twoNormals_nodup twoNormals_determined twoNormals_local twoNormals_apart twoNormals_total
    twoNormals_sampled rfl (fun _ => 1) observeX streamLaw streams streams_exact
  refine ⟨lp, h1, ?_⟩
  filter_upwards [h2] with x hx key
  exact (hx 12 [] key 9 (by norm_num)).1 2

end Verif.Mcmc.Keyed
