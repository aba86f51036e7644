import Verif.Optix.Forms

namespace Verif.Optix

open Finset

variable {ι : Type}

/-- Initialise on the first gradient and call `n` times: the outputs and the final variables. -/
def fullRun (f : Fn ι) (g p : ℕ → ι → ℝ) (n : ℕ) : Except Err (List (ι → ℝ) × Vars ι) := do
  let v ← f.init (g 0) (p 0)
  runFrom f v (history g p n)

theorem fullRun_seq (f : Fn ι) (g p o : ℕ → ι → ℝ) (inv : ℕ → Vars ι)
    (hi : f.init (g 0) (p 0) = .ok (inv 0))
    (h : ∀ k, callAndUpdate f (inv k) (g k) (p k) = .ok (o k, inv (k + 1))) (n : ℕ) :
    fullRun f g p n = .ok ((List.range n).map o, inv n) := by
  simp only [fullRun, hi, bind, Except.bind]
  exact runFrom_seq f g p o inv h n

/-- The exponentially decayed sum of the first `n` terms of `x`. -/
def decayed (d : ℝ) (x : ℕ → ℝ) (n : ℕ) : ℝ := ∑ j ∈ range n, d ^ (n - 1 - j) * x j

theorem decayed_zero (d : ℝ) (x : ℕ → ℝ) : decayed d x 0 = 0 := rfl

theorem decayed_succ (d : ℝ) (x : ℕ → ℝ) (n : ℕ) :
    decayed d x (n + 1) = x n + d * decayed d x n := by
  unfold decayed
  rw [sum_range_succ, mul_sum, add_comm]
  congr 1
  · simp
  · refine sum_congr rfl fun j hj => ?_
    have hj := mem_range.1 hj
    rw [← mul_assoc, ← pow_succ']
    congr 2
    omega

/-- The exponential moving average (started at zero) of the first `n` terms of `x`. -/
def ema (d : ℝ) (x : ℕ → ℝ) (n : ℕ) : ℝ := (1 - d) * decayed d x n

theorem ema_succ (d : ℝ) (x : ℕ → ℝ) (n : ℕ) :
    ema d x (n + 1) = (1 - d) * x n + d * ema d x n := by
  unfold ema; rw [decayed_succ]; ring

theorem ema_zero (d : ℝ) (x : ℕ → ℝ) : ema d x 0 = 0 := by simp [ema, decayed_zero]

theorem ema_const (d c : ℝ) (n : ℕ) : ema d (fun _ => c) n = (1 - d ^ n) * c := by
  induction n with
  | zero => simp [ema_zero]
  | succ n ih => rw [ema_succ, ih]; ring

/-- The weights of the moving average are nonnegative and add up to `1 - d ^ n`. -/
theorem ema_mono {d : ℝ} (h0 : 0 ≤ d) (h1 : d ≤ 1) {x y : ℕ → ℝ} (h : ∀ k, x k ≤ y k) (n : ℕ) :
    ema d x n ≤ ema d y n := by
  induction n with
  | zero => simp [ema_zero]
  | succ n ih =>
    rw [ema_succ, ema_succ]
    nlinarith [h n, mul_le_mul_of_nonneg_left (h n) (sub_nonneg.2 h1),
      mul_le_mul_of_nonneg_left ih h0]

/-- The second moment dominates the square of the first. -/
theorem ema_sq_le {d : ℝ} (h0 : 0 ≤ d) (h1 : d ≤ 1) (x : ℕ → ℝ) (n : ℕ) :
    ema d x n ^ 2 ≤ ema d (fun k => x k ^ 2) n := by
  induction n with
  | zero => simp [ema_zero]
  | succ n ih =>
    rw [ema_succ, ema_succ]
    nlinarith [mul_nonneg (mul_nonneg h0 (sub_nonneg.2 h1)) (sq_nonneg (x n - ema d x n)),
      mul_le_mul_of_nonneg_left ih h0]

theorem updateMoment_ema (d : ℝ) (r : ℕ) (g : ℕ → ι → ℝ) (k : ℕ) :
    updateMoment (g k) (fun i => ema d (fun j => g j i ^ r) k) d r
      = fun i => ema d (fun j => g j i ^ r) (k + 1) := by
  funext i
  rw [ema_succ]; rfl

theorem fullRun_trace (d : ℝ) (nes : Bool) (g p : ℕ → ι → ℝ) (n : ℕ) :
    fullRun (trace d nes) g p n
      = .ok ((List.range n).map fun k i =>
            if nes then g k i + d * decayed d (fun j => g j i) (k + 1)
            else decayed d (fun j => g j i) (k + 1),
          [("trace", .arr fun i => decayed d (fun j => g j i) n)]) := by
  refine fullRun_seq (trace d nes) g p _ (fun k => [("trace", .arr fun i => decayed d (fun j => g j i) k)])
    rfl (fun k => ?_) n
  rw [trace_step]
  simp only [decayed_succ]
  cases nes <;> rfl

theorem fullRun_rms (d e : ℝ) (g p : ℕ → ι → ℝ) (n : ℕ) :
    fullRun (scaleByRms d e) g p n
      = .ok ((List.range n).map fun k i =>
            g k i / Real.sqrt (ema d (fun j => g j i ^ 2) (k + 1) + e),
          [("nu", .arr fun i => ema d (fun j => g j i ^ 2) n)]) := by
  refine fullRun_seq (scaleByRms d e) g p _
    (fun k => [("nu", .arr fun i => ema d (fun j => g j i ^ 2) k)]) ?_ (fun k => ?_) n
  · simp [scaleByRms, ema_zero]
  · rw [rms_step, updateMoment_ema]

theorem updateMoment_ema_one (d : ℝ) (g : ℕ → ι → ℝ) (k : ℕ) :
    updateMoment (g k) (fun i => ema d (fun j => g j i) k) d 1
      = fun i => ema d (fun j => g j i) (k + 1) := by
  have := updateMoment_ema d 1 g k
  simpa using this

theorem fullRun_stddev (d e : ℝ) (g p : ℕ → ι → ℝ) (n : ℕ) :
    fullRun (scaleByStddev d e) g p n
      = .ok ((List.range n).map fun k i =>
            g k i / Real.sqrt (ema d (fun j => g j i ^ 2) (k + 1)
              - ema d (fun j => g j i) (k + 1) ^ 2 + e),
          [("mu", .arr fun i => ema d (fun j => g j i) n),
            ("nu", .arr fun i => ema d (fun j => g j i ^ 2) n)]) := by
  refine fullRun_seq (scaleByStddev d e) g p _
    (fun k => [("mu", .arr fun i => ema d (fun j => g j i) k),
      ("nu", .arr fun i => ema d (fun j => g j i ^ 2) k)]) ?_ (fun k => ?_) n
  · simp [scaleByStddev, ema_zero]
  · rw [stddev_step, updateMoment_ema, updateMoment_ema_one]

theorem fullRun_adam (b1 b2 e : ℝ) (g p : ℕ → ι → ℝ) (n : ℕ) :
    fullRun (scaleByAdam b1 b2 e) g p n
      = .ok ((List.range n).map fun k i =>
            ema b1 (fun j => g j i) (k + 1) / (1 - b1 ^ (k + 1))
              / (Real.sqrt (ema b2 (fun j => g j i ^ 2) (k + 1) / (1 - b2 ^ (k + 1))) + e),
          [("count", .num n), ("mu", .arr fun i => ema b1 (fun j => g j i) n),
            ("nu", .arr fun i => ema b2 (fun j => g j i ^ 2) n)]) := by
  refine fullRun_seq (scaleByAdam b1 b2 e) g p _
    (fun k => [("count", .num k), ("mu", .arr fun i => ema b1 (fun j => g j i) k),
      ("nu", .arr fun i => ema b2 (fun j => g j i ^ 2) k)]) ?_ (fun k => ?_) n
  · simp [scaleByAdam, ema_zero]
  · rw [adam_step, updateMoment_ema, updateMoment_ema_one,
      show ((k : ℝ) + 1) = ((k + 1 : ℕ) : ℝ) by push_cast; rfl]
    simp only [Real.rpow_natCast]

theorem fullRun_schedule (s : ℝ → ℝ) (g p : ℕ → ι → ℝ) (n : ℕ) :
    fullRun (scaleBySchedule s) g p n
      = .ok ((List.range n).map fun k i => s (k : ℕ) * g k i, [("count", .num n)]) := by
  refine fullRun_seq (scaleBySchedule s) g p _ (fun k => [("count", .num k)]) ?_ (fun k => ?_) n
  · simp [scaleBySchedule]
  · rw [schedule_step]; push_cast; rfl

/-- The keys `add_noise` holds: each is split off the previous one. -/
def noiseKey (draw : Nat → Nat × (ι → ℝ)) (seed : Nat) : ℕ → Nat
  | 0 => seed
  | k + 1 => (draw (noiseKey draw seed k)).1

theorem fullRun_noise (draw : Nat → Nat × (ι → ℝ)) (eta gamma : ℝ) (seed : Nat)
    (g p : ℕ → ι → ℝ) (n : ℕ) :
    fullRun (addNoise draw eta gamma seed) g p n
      = .ok ((List.range n).map fun k i =>
            g k i + eta / (1 + (k : ℝ)) ^ gamma * (draw (noiseKey draw seed k)).2 i,
          [("count", .num n), ("rng_key", .key (noiseKey draw seed n))]) := by
  refine fullRun_seq (addNoise draw eta gamma seed) g p _
    (fun k => [("count", .num k), ("rng_key", .key (noiseKey draw seed k))]) ?_ (fun k => ?_) n
  · simp [addNoise, noiseKey]
  · rw [noise_step]; push_cast; rfl

/-- The gradients accumulated before step `n`: those since the last multiple of `K` before it. -/
def window (K : ℕ) (x : ℕ → ℝ) (n : ℕ) : ℝ := ∑ j ∈ Ico ((n - 1) / K * K) n, x j

theorem window_succ (K : ℕ) (hK : 1 ≤ K) (x : ℕ → ℝ) (n : ℕ) :
    window K x (n + 1) = (if n % K = 0 then 0 else window K x n) + x n := by
  unfold window
  simp only [Nat.add_sub_cancel]
  have hle : n / K * K ≤ n := Nat.div_mul_le_self n K
  rw [sum_Ico_succ_top hle]
  congr 1
  split_ifs with h
  · have : n / K * K = n := Nat.div_mul_cancel (Nat.dvd_of_mod_eq_zero h)
    rw [this]; simp
  · have : (n - 1) / K = n / K := by
      have hn : n ≠ 0 := by rintro rfl; simp at h
      rw [Nat.div_eq_iff (by omega)]
      have h1 := Nat.div_add_mod n K
      have h2 : 1 ≤ n % K := by omega
      have h3 := Nat.mod_lt n (show K > 0 by omega)
      rw [Nat.mul_comm] at h1
      omega
    rw [this]

theorem fullRun_every (K : ℕ) (hK : 1 ≤ K) (g p : ℕ → ι → ℝ) (n : ℕ) :
    fullRun (applyEvery K) g p n
      = .ok ((List.range n).map fun k i =>
            if (k + 1) % K = 0 then ∑ j ∈ Ico (k + 1 - K) (k + 1), g j i else 0,
          [("count", .num n), ("grad_acc", .arr fun i => window K (fun j => g j i) n)]) := by
  refine fullRun_seq (applyEvery K) g p _
    (fun k => [("count", .num k), ("grad_acc", .arr fun i => window K (fun j => g j i) k)]) ?_
    (fun k => ?_) n
  · simp [applyEvery, window]
  · rw [every_step K k hK]
    have hw : (fun i => (if k % K = 0 then 0 else window K (fun j => g j i) k) + g k i)
        = fun i => window K (fun j => g j i) (k + 1) := by
      funext i; rw [window_succ K hK]
    rw [hw]
    congr 2
    by_cases h : (k + 1) % K = 0
    · simp only [h, if_true]
      funext i
      unfold window
      have : (k + 1 - 1) / K * K = k + 1 - K := by
        obtain ⟨q, hq⟩ := Nat.dvd_of_mod_eq_zero h
        have hq0 : q ≠ 0 := by rintro rfl; simp at hq
        obtain ⟨r, rfl⟩ := Nat.exists_eq_succ_of_ne_zero hq0
        have : k = K * r + (K - 1) := by rw [Nat.mul_succ] at hq; omega
        rw [hq, Nat.mul_succ]
        have e : (K * r + K - 1) / K = r := by
          rw [Nat.div_eq_iff (by omega)]
          constructor
          · rw [Nat.mul_comm r K]; omega
          · rw [Nat.mul_comm r K]
        rw [e, Nat.mul_comm, Nat.add_sub_cancel]
      rw [this]
    · simp only [h, if_false]

end Verif.Optix
