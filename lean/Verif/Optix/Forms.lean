import Verif.Optix.Chain

namespace Verif.Optix

open Finset

variable {ι : Type}

/-- The history of the first `n` gradients and parameters. -/
def history (g p : ℕ → ι → ℝ) (n : ℕ) : List ((ι → ℝ) × (ι → ℝ)) :=
  (List.range n).map fun k => (g k, p k)

theorem runFrom_seq_aux (f : Fn ι) (g p o : ℕ → ι → ℝ) (inv : ℕ → Vars ι)
    (h : ∀ k, callAndUpdate f (inv k) (g k) (p k) = .ok (o k, inv (k + 1))) (m n : ℕ) :
    runFrom f (inv m) ((List.range' m n).map fun k => (g k, p k))
      = .ok ((List.range' m n).map o, inv (m + n)) := by
  induction n generalizing m with
  | zero => rfl
  | succ n ih =>
    simp only [List.range'_succ, List.map_cons, runFrom, h, bind, Except.bind, ih (m + 1), pure,
      Except.pure]
    rw [show m + 1 + n = m + (n + 1) by ring]

theorem runFrom_seq (f : Fn ι) (g p o : ℕ → ι → ℝ) (inv : ℕ → Vars ι)
    (h : ∀ k, callAndUpdate f (inv k) (g k) (p k) = .ok (o k, inv (k + 1))) (n : ℕ) :
    runFrom f (inv 0) (history g p n) = .ok ((List.range n).map o, inv n) := by
  have := runFrom_seq_aux f g p o inv h 0 n
  rw [← List.range_eq_range', Nat.zero_add] at this
  exact this

theorem runHist_seq (f : Fn ι) (g p o : ℕ → ι → ℝ) (inv : ℕ → Vars ι)
    (hi : f.init (g 0) (p 0) = .ok (inv 0))
    (h : ∀ k, callAndUpdate f (inv k) (g k) (p k) = .ok (o k, inv (k + 1))) (n : ℕ) :
    runHist f (history g p n) = .ok ((List.range n).map o) := by
  have h1 := runFrom_seq f g p o inv h n
  cases n with
  | zero => rfl
  | succ n =>
    have e : history g p (n + 1)
        = (g 0, p 0) :: (List.range n).map fun k => (g (k + 1), p (k + 1)) := by
      simp [history, List.range_succ_eq_map, Function.comp_def]
    rw [e] at h1 ⊢
    simp only [runHist, hi, h1, bind, Except.bind, pure, Except.pure]

/-! ### One step of each transformation -/

section Steps

theorem pureFn_step (g : (ι → ℝ) → (ι → ℝ) → (ι → ℝ)) (u p : ι → ℝ) :
    callAndUpdate (pureFn g) [] u p = .ok (g u p, []) := rfl

theorem trace_step (d : ℝ) (nes : Bool) (t u p : ι → ℝ) :
    callAndUpdate (trace d nes) [("trace", .arr t)] u p
      = .ok (if nes then fun i => u i + d * (u i + d * t i) else fun i => u i + d * t i,
          [("trace", .arr fun i => u i + d * t i)]) := by
  simp [callAndUpdate, trace, getArr, bind, Except.bind, pure, Except.pure, overwrite]

theorem rms_step (d e : ℝ) (t u p : ι → ℝ) :
    callAndUpdate (scaleByRms d e) [("nu", .arr t)] u p
      = .ok (fun i => u i / Real.sqrt (updateMoment u t d 2 i + e),
          [("nu", .arr (updateMoment u t d 2))]) := by
  simp [callAndUpdate, scaleByRms, getArr, bind, Except.bind, pure, Except.pure, overwrite]

theorem stddev_step (d e : ℝ) (m t u p : ι → ℝ) :
    callAndUpdate (scaleByStddev d e) [("mu", .arr m), ("nu", .arr t)] u p
      = .ok (fun i => u i / Real.sqrt (updateMoment u t d 2 i - updateMoment u m d 1 i ^ 2 + e),
          [("mu", .arr (updateMoment u m d 1)), ("nu", .arr (updateMoment u t d 2))]) := by
  simp [callAndUpdate, scaleByStddev, getArr, bind, Except.bind, pure, Except.pure, overwrite,
    List.lookup]

theorem adam_step (b1 b2 e c : ℝ) (m t u p : ι → ℝ) :
    callAndUpdate (scaleByAdam b1 b2 e) [("count", .num c), ("mu", .arr m), ("nu", .arr t)] u p
      = .ok (fun i => updateMoment u m b1 1 i / (1 - b1 ^ (c + 1))
            / (Real.sqrt (updateMoment u t b2 2 i / (1 - b2 ^ (c + 1))) + e),
          [("count", .num (c + 1)), ("mu", .arr (updateMoment u m b1 1)),
            ("nu", .arr (updateMoment u t b2 2))]) := by
  simp [callAndUpdate, scaleByAdam, getArr, getNum, bind, Except.bind, pure, Except.pure,
    overwrite, List.lookup]

theorem schedule_step (s : ℝ → ℝ) (c : ℝ) (u p : ι → ℝ) :
    callAndUpdate (scaleBySchedule s) [("count", .num c)] u p
      = .ok (fun i => s c * u i, [("count", .num (c + 1))]) := by
  simp [callAndUpdate, scaleBySchedule, getNum, bind, Except.bind, pure, Except.pure, overwrite]

theorem noise_step (draw : Nat → Nat × (ι → ℝ)) (eta gamma : ℝ) (seed : Nat) (c : ℝ) (k : Nat)
    (u p : ι → ℝ) :
    callAndUpdate (addNoise draw eta gamma seed) [("count", .num c), ("rng_key", .key k)] u p
      = .ok (fun i => u i + eta / (1 + c) ^ gamma * (draw k).2 i,
          [("count", .num (c + 1)), ("rng_key", .key (draw k).1)]) := by
  simp [callAndUpdate, addNoise, getNum, getKey, bind, Except.bind, pure, Except.pure, overwrite,
    List.lookup]

theorem fmod_natCast (n k : ℕ) : fmod n k = ((n % k : ℕ) : ℝ) := by
  rcases Nat.eq_zero_or_pos k with rfl | hk
  · simp [fmod]
  have hk' : (0 : ℝ) < k := by exact_mod_cast hk
  have e : (n : ℝ) = k * ((n / k : ℕ) : ℝ) + ((n % k : ℕ) : ℝ) := by
    have := (Nat.div_add_mod n k).symm
    exact_mod_cast this
  have hlt : ((n % k : ℕ) : ℝ) < k := by exact_mod_cast Nat.mod_lt n hk
  have h0 : (0 : ℝ) ≤ ((n % k : ℕ) : ℝ) := by positivity
  generalize (n / k : ℕ) = q at e
  generalize ((n % k : ℕ) : ℝ) = r at *
  have h1 : ⌊(n : ℝ) / (k : ℝ)⌋ = (q : ℤ) := by
    rw [Int.floor_eq_iff, le_div_iff₀ hk', div_lt_iff₀ hk']
    constructor
    · push_cast; nlinarith
    · push_cast; nlinarith
  unfold fmod
  rw [h1]
  push_cast
  linarith

theorem every_step (k n : ℕ) (hk : 1 ≤ k) (t u p : ι → ℝ) :
    callAndUpdate (applyEvery k) [("count", .num n), ("grad_acc", .arr t)] u p
      = .ok (if (n + 1) % k = 0 then fun i => (if n % k = 0 then 0 else t i) + u i else fun _ => 0,
          [("count", .num (n + 1 : ℕ)),
            ("grad_acc", .arr fun i => (if n % k = 0 then 0 else t i) + u i)]) := by
  have hlt : n % k < k := Nat.mod_lt _ hk
  have h1 : ((n % k : ℕ) : ℝ) = (k : ℝ) - 1 ↔ (n + 1) % k = 0 := by
    have : ((n % k : ℕ) : ℝ) = (k : ℝ) - 1 ↔ n % k + 1 = k := by
      rw [eq_sub_iff_add_eq]
      exact_mod_cast Iff.rfl
    rw [this, Nat.add_mod]
    rcases Nat.lt_or_ge 1 k with h | h
    · rw [Nat.mod_eq_of_lt h]
      constructor
      · intro e; rw [e, Nat.mod_self]
      · intro e
        by_contra hne
        rw [Nat.mod_eq_of_lt (by omega)] at e
        omega
    · have : k = 1 := by omega
      subst this
      simp [Nat.mod_one]
  have h2 : ((n % k : ℕ) : ℝ) ≠ 0 ↔ n % k ≠ 0 := by norm_cast
  simp only [callAndUpdate, applyEvery, getNum, getArr, bind, Except.bind, pure, Except.pure,
    overwrite, List.lookup, beq_self_eq_true, show ("grad_acc" == "count") = false from rfl]
  have h3 : n % k = 0 → ((0 : ℝ) = (k : ℝ) - 1 ↔ (n + 1) % k = 0) := by
    intro h; rw [← h1, h]; norm_num
  by_cases ha : n % k = 0 <;> by_cases hb : (n + 1) % k = 0 <;>
    simp [ha, hb, fmod_natCast, h1, h3]

end Steps

end Verif.Optix
