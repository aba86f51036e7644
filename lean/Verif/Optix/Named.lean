import Verif.Optix.Props

/-!
# C41: the ready-made optimizers

What `sgd` (with Nesterov momentum), `noisy_sgd`, `adam` and `rmsprop` (`optix.py:262-282`) output at every step, in
terms of the gradients seen so far.
-/

namespace Verif.Optix

open Finset

variable {ι : Type}

/-- `o` is the stream of outputs of running `fs` one after the other on the stream `g`, each on its own. -/
inductive Pipe (p : ℕ → ι → ℝ) : List (Fn ι) → (ℕ → ι → ℝ) → (ℕ → ι → ℝ) → Prop
  | nil (g) : Pipe p [] g g
  | cons {f fs g o o'} (h : ∀ n, (fullRun f g p n).map Prod.fst = .ok ((List.range n).map o))
      (hs : Pipe p fs o o') : Pipe p (f :: fs) g o'

theorem fold_pipe {p : ℕ → ι → ℝ} (n : ℕ) : ∀ {fs : List (Fn ι)} {g o : ℕ → ι → ℝ}, Pipe p fs g o →
    fs.foldlM (fun us f => outputs f (us.zip ((List.range (n + 1)).map p))) ((List.range (n + 1)).map g)
      = .ok ((List.range (n + 1)).map o) := by
  intro fs g o h
  induction h with
  | nil g => rfl
  | @cons f fs g o o' h hs ih =>
    have e2 : ((List.range (n + 1)).map g).zip ((List.range (n + 1)).map p) = history g p (n + 1) := by
      rw [List.zip_map']; rfl
    have h2 := h (n + 1)
    rw [fullRun_eq_runFull] at h2
    rw [List.foldlM_cons, e2]
    unfold outputs at ih ⊢
    rw [h2]
    exact ih

theorem fullRun_pipe {p : ℕ → ι → ℝ} {fs : List (Fn ι)} (hall : ∀ f ∈ fs, ∃ st, Total f st)
    {g o : ℕ → ι → ℝ} (h : Pipe p fs g o) (n : ℕ) :
    (fullRun (chain false fs) g p n).map Prod.fst = .ok ((List.range n).map o) := by
  cases n with
  | zero =>
    obtain ⟨st, Good, hs⟩ := total_chain_outputs _ hall
    obtain ⟨v, hv, _⟩ := hs.init_ok (g 0) (p 0)
    simp [fullRun, hv, bind, Except.bind, history, runFrom, Except.map]
  | succ n =>
    rw [fullRun_eq_runFull]
    have h1 := chain_args fs hall (history g p (n + 1))
    have e1 : (history g p (n + 1)).map Prod.snd = (List.range (n + 1)).map p := by
      simp [history, Function.comp_def]
    have e2 : (history g p (n + 1)).map Prod.fst = (List.range (n + 1)).map g := by
      simp [history, Function.comp_def]
    rw [e1, e2, fold_pipe n h] at h1
    exact h1

theorem pipe_scale (c : ℝ) (g p : ℕ → ι → ℝ) : Pipe p [scale c] g (fun k i => c * g k i) :=
  .cons (fun n => by
    rw [fullRun_seq (scale c) g p (fun k i => c * g k i) (fun _ => []) rfl (fun k => rfl)]; rfl) (.nil _)

/-- **C41**, `sgd` with Nesterov momentum: step `k` outputs `-lr (g_k + d Σ_{j≤k} d^(k-j) g_j)`. -/
theorem sgd_nesterov_closed_form (lr d : ℝ) (g p : ℕ → ι → ℝ) (n : ℕ) :
    (fullRun (sgd false lr d true) g p n).map Prod.fst
      = .ok ((List.range n).map fun k i => -lr * (g k i + d * ∑ j ∈ range (k + 1), d ^ (k - j) * g j i)) := by
  refine fullRun_pipe ?_ (.cons (fun n => ?_) (pipe_scale (-lr) _ p)) n
  · intro f hf
    simp only [List.mem_cons, List.not_mem_nil, or_false] at hf
    rcases hf with rfl | rfl
    · exact ⟨_, total_trace ..⟩
    · exact ⟨_, total_pureFn _⟩
  · rw [trace_closed_form]; rfl

/-- **C41**, `noisy_sgd`: step `k` outputs `-lr g_k` plus a fresh draw scaled by `eta / (1 + k)^gamma`; the noise is
not scaled by the learning rate. -/
theorem noisy_sgd_closed_form (draw : Nat → Nat × (ι → ℝ)) (lr eta gamma : ℝ) (seed : Nat) (g p : ℕ → ι → ℝ)
    (n : ℕ) :
    (fullRun (noisySgd false draw lr eta gamma seed) g p n).map Prod.fst
      = .ok ((List.range n).map fun k i => -lr * g k i
          + eta / (1 + (k : ℝ)) ^ gamma * (draw ((fun key => (draw key).1)^[k] seed)).2 i) := by
  refine fullRun_pipe (o := fun k i => -lr * g k i
          + eta / (1 + (k : ℝ)) ^ gamma * (draw ((fun key => (draw key).1)^[k] seed)).2 i) ?_
    (.cons (o := g) (fun n => ?_) (.cons (o := fun k i => -lr * g k i) (fun n => ?_)
      (.cons (fun n => ?_) (.nil _)))) n
  · intro f hf
    simp only [List.mem_cons, List.not_mem_nil, or_false] at hf
    rcases hf with rfl | rfl | rfl
    · exact ⟨_, total_trace ..⟩
    · exact ⟨_, total_pureFn _⟩
    · exact ⟨_, total_noise ..⟩
  · rw [trace_closed_form]
    simp only [Except.map, Bool.false_eq_true, if_false, Except.ok.injEq]
    refine List.map_congr_left fun k _ => ?_
    funext i
    rw [sum_range_succ, sum_eq_zero]
    · simp
    · intro j hj
      have hj := mem_range.1 hj
      rw [zero_pow (by omega), zero_mul]
  · rw [fullRun_seq (scale (-lr)) g p (fun k i => -lr * g k i) (fun _ => []) rfl (fun k => rfl)]; rfl
  · rw [noise_closed_form]; rfl

/-- **C41**, `adam`: step `k` outputs `-lr` times the bias-corrected first moment over the root of the bias-corrected
second moment plus `eps`. -/
theorem adam_outputs (lr b1 b2 eps : ℝ) (g p : ℕ → ι → ℝ) (n : ℕ) :
    (fullRun (adam false lr b1 b2 eps) g p n).map Prod.fst
      = .ok ((List.range n).map fun k i => -lr *
          ((1 - b1) * (∑ j ∈ range (k + 1), b1 ^ (k - j) * g j i) / (1 - b1 ^ (k + 1))
              / (Real.sqrt ((1 - b2) * (∑ j ∈ range (k + 1), b2 ^ (k - j) * g j i ^ 2)
                  / (1 - b2 ^ (k + 1))) + eps))) := by
  refine fullRun_chain_scale _ (total_adam b1 b2 eps) (-lr) g p _ (fun n => ?_) n
  rw [adam_closed_form]; rfl

/-- **C41**, `rmsprop`: step `k` outputs `-lr g_k / sqrt(v_k + eps)` where `v_k` is the moving average of the squares
of the gradients, minus the square of their moving average if `centered`. -/
theorem rmsprop_outputs (lr d eps : ℝ) (centered : Bool) (g p : ℕ → ι → ℝ) (n : ℕ) :
    (fullRun (rmsprop false lr d eps centered) g p n).map Prod.fst
      = .ok ((List.range n).map fun k i => -lr *
          (g k i / Real.sqrt (((1 - d) * ∑ j ∈ range (k + 1), d ^ (k - j) * g j i ^ 2)
              - (if centered then ((1 - d) * ∑ j ∈ range (k + 1), d ^ (k - j) * g j i) ^ 2 else 0) + eps))) := by
  cases centered
  · refine fullRun_chain_scale _ (total_rms d eps) (-lr) g p _ (fun n => ?_) n
    rw [rms_closed_form]
    simp [Except.map]
  · refine fullRun_chain_scale _ (total_stddev d eps) (-lr) g p _ (fun n => ?_) n
    rw [stddev_closed_form]
    simp [Except.map]

/-- A gradient history on one coordinate: centering matters from the first step. -/
example : (fullRun (rmsprop (ι := Unit) false 1 (1/2) 0 true) (fun _ _ => 2) (fun _ _ => 0) 1).map Prod.fst
    = .ok [fun _ => -2 / Real.sqrt 1] := by
  rw [rmsprop_outputs]
  simp
  norm_num

end Verif.Optix
