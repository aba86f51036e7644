import Verif.NN.Index
import Mathlib.Tactic.Linarith
import Mathlib.Tactic.FieldSimp
import Mathlib.Tactic.Ring

/-!
# C56: batch normalisation
-/

namespace Verif.NN

theorem paramShape_channel (axis : List Nat) : ∀ (i : Nat) (idx : List Nat),
    paramShape axis i (channel axis i idx) = paramShape axis i idx
  | _, [] => rfl
  | i, d :: s => by
    simp only [channel, paramShape]
    split
    · exact paramShape_channel axis (i + 1) s
    · rw [paramShape_channel axis (i + 1) s]

theorem channel_mem (axis : List Nat) : ∀ (i : Nat) (s idx : List Nat), idx ∈ indices s →
    channel axis i idx ∈ indices (movingShape axis i s)
  | _, [], idx, h => by simp [indices] at h; subst h; simp [channel, movingShape, indices]
  | i, d :: s, idx, h => by
    have h' := mem_indices.1 h
    cases h' with
    | @cons j _ t _ h1 h2 =>
      refine mem_indices.2 (.cons ?_ (mem_indices.1 (channel_mem axis (i + 1) s t (mem_indices.2 h2))))
      split
      · exact Nat.one_pos
      · exact h1

theorem mean_map_affine (l : List ℝ) (hl : l ≠ []) (a b : ℝ) :
    mean (l.map fun v => a * v + b) = a * mean l + b := by
  have : (0 : ℝ) < l.length := by exact_mod_cast List.length_pos_iff.2 hl
  unfold mean
  have e : (l.map fun v => a * v + b).sum = a * l.sum + l.length * b := by
    clear this hl
    induction l with
    | nil => simp
    | cons c l ih =>
      simp only [List.map_cons, List.sum_cons, ih, List.length_cons, Nat.cast_add, Nat.cast_one]; ring
  rw [e, List.length_map]
  field_simp

theorem sum_sq_dev (l : List ℝ) (c : ℝ) :
    (l.map fun v => (v - c) ^ 2).sum = (l.map (· ^ 2)).sum - 2 * c * l.sum + l.length * c ^ 2 := by
  induction l with
  | nil => simp
  | cons a l ih =>
    simp only [List.map_cons, List.sum_cons, ih, List.length_cons, Nat.cast_add, Nat.cast_one]; ring

/-- `E[x²] - E[x]²` is the mean squared deviation. -/
theorem mean_sq_sub (l : List ℝ) (hl : l ≠ []) :
    mean (l.map (· ^ 2)) - mean l ^ 2 = mean (l.map fun v => (v - mean l) ^ 2) := by
  have : (0 : ℝ) < l.length := by exact_mod_cast List.length_pos_iff.2 hl
  conv_rhs => rw [mean, sum_sq_dev]
  simp only [List.length_map]
  unfold mean
  simp only [List.length_map]
  field_simp
  ring

theorem mean_nonneg (l : List ℝ) (h : ∀ v ∈ l, 0 ≤ v) : 0 ≤ mean l :=
  div_nonneg (List.sum_nonneg h) (Nat.cast_nonneg _)

/-- The variance is not negative. -/
theorem channelVar_nonneg (axis s : List Nat) (batch : List Arr) (ch : List Nat) :
    0 ≤ channelVar axis s batch ch := by
  unfold channelVar channelMean
  by_cases h : channelEntries axis s batch ch = []
  · simp [h, mean]
  · rw [mean_sq_sub _ h]
    refine mean_nonneg _ fun v hv => ?_
    obtain ⟨w, _, rfl⟩ := List.mem_map.1 hv
    positivity

/-- Multiplication by `gamma` and addition of `beta`, for the channel `ch`. -/
noncomputable def gammaAt (bn : BN) (ch : List Nat) : ℝ :=
  match bn.gamma with
  | some g => g.get (paramShape bn.axis 0 ch)
  | none => 1

/-- The offset of the channel `ch`. -/
noncomputable def betaAt (bn : BN) (ch : List Nat) : ℝ :=
  match bn.beta with
  | some b => b.get (paramShape bn.axis 0 ch)
  | none => 0

theorem affine_eq (bn : BN) (idx : List Nat) (z : ℝ) :
    affine bn idx z = gammaAt bn (channel bn.axis 0 idx) * z + betaAt bn (channel bn.axis 0 idx) := by
  unfold affine gammaAt betaAt
  rw [paramShape_channel]
  cases bn.gamma <;> cases bn.beta <;> simp

/-- The entries of a channel after `BatchNorm` in training mode. -/
theorem channelEntries_bnTrain (bn : BN) (batch : List Arr) (ch : List Nat) :
    channelEntries bn.axis bn.shape (bnTrain bn batch) ch =
    (channelEntries bn.axis bn.shape batch ch).map fun v =>
      gammaAt bn ch * ((v - channelMean bn.axis bn.shape batch ch)
        / Real.sqrt (channelVar bn.axis bn.shape batch ch + bn.eps)) + betaAt bn ch := by
  unfold bnTrain
  conv_lhs => rw [channelEntries]
  conv_rhs => rw [channelEntries]
  rw [List.flatMap_map, List.map_flatMap]
  refine List.flatMap_congr fun x _ => ?_
  rw [List.map_map]
  refine List.map_congr_left fun idx hidx => ?_
  obtain ⟨h1, h2⟩ := List.mem_filter.1 hidx
  have h2 : channel bn.axis 0 idx = ch := by simpa using h2
  rw [get_map_indices _ _ h1]
  simp only [Function.comp_apply]
  rw [affine_eq, h2]

/-- **C56, training.** In training mode (`vmap` over a batch), in every channel that has entries, the
mean of the output is `beta` and the variance is `gamma² σ² / (σ² + ε)`, where `σ²` is the variance of
the input. -/
theorem C56_batchnorm_normalises (bn : BN) (batch : List Arr) (ch : List Nat)
    (hne : channelEntries bn.axis bn.shape batch ch ≠ []) (heps : 0 < bn.eps) :
    channelMean bn.axis bn.shape (bnTrain bn batch) ch = betaAt bn ch ∧
    channelVar bn.axis bn.shape (bnTrain bn batch) ch =
      gammaAt bn ch ^ 2 * channelVar bn.axis bn.shape batch ch
        / (channelVar bn.axis bn.shape batch ch + bn.eps) := by
  set l := channelEntries bn.axis bn.shape batch ch with hl
  set μ := channelMean bn.axis bn.shape batch ch with hμ
  have hμ' : mean l = μ := rfl
  set V := channelVar bn.axis bn.shape batch ch with hV
  have hV0 : 0 ≤ V := channelVar_nonneg _ _ _ _
  set σ := Real.sqrt (V + bn.eps) with hσ
  have hσpos : 0 < σ := Real.sqrt_pos.2 (by linarith)
  have hσ2 : σ ^ 2 = V + bn.eps := Real.sq_sqrt (by linarith)
  set g := gammaAt bn ch
  set b := betaAt bn ch
  have hent : channelEntries bn.axis bn.shape (bnTrain bn batch) ch =
      l.map fun v => (g / σ) * v + (b - g / σ * μ) := by
    rw [channelEntries_bnTrain]
    refine List.map_congr_left fun v _ => ?_
    change g * ((v - μ) / σ) + b = _
    field_simp
    ring
  have hm : channelMean bn.axis bn.shape (bnTrain bn batch) ch = b := by
    unfold channelMean
    rw [hent, mean_map_affine l hne, hμ']; ring
  refine ⟨hm, ?_⟩
  have hne' : channelEntries bn.axis bn.shape (bnTrain bn batch) ch ≠ [] := by
    rw [hent]; simpa using hne
  conv_lhs => unfold channelVar channelMean
  rw [mean_sq_sub _ hne']
  have hm' : mean (channelEntries bn.axis bn.shape (bnTrain bn batch) ch) = b := hm
  rw [hm', hent, List.map_map]
  have e : (fun v => (v - b) ^ 2) ∘ (fun v => g / σ * v + (b - g / σ * μ))
      = (fun u => (g / σ) ^ 2 * u + 0) ∘ fun v => (v - μ) ^ 2 := by
    funext v; simp only [Function.comp_apply]; ring
  rw [e, ← List.map_map, mean_map_affine _ (by simpa using hne)]
  have hvar : mean (l.map fun v => (v - μ) ^ 2) = V := by
    rw [hV, channelVar, channelMean, ← hl, mean_sq_sub l hne, hμ']
  rw [hvar, ← hσ2]
  field_simp
  ring

/-- Inference on a batch is inference on every example, with the moving statistics. -/
theorem C56_inference_entry (bn : BN) (x : Arr) (hx : x.shape = bn.shape) :
    ∃ y, bnCall bn false x = .ok y ∧ y.shape = x.shape ∧ y.WF ∧ ∀ idx ∈ indices x.shape,
      y.get idx = gammaAt bn (channel bn.axis 0 idx) *
        ((x.get idx - bn.movingMean.get (channel bn.axis 0 idx))
          / Real.sqrt (bn.movingVar.get (channel bn.axis 0 idx) + bn.eps))
        + betaAt bn (channel bn.axis 0 idx) := by
  refine ⟨bnInfer bn x, ?_, hx.symm, wf_map_indices _ _, fun idx hidx => ?_⟩
  · simp [bnCall, hx]
  · rw [hx] at hidx
    unfold bnInfer
    rw [get_map_indices _ _ hidx]
    simp only
    rw [affine_eq]

/-- The moving statistics have the shape `initialize` gives them. -/
def BN.WF (bn : BN) : Prop :=
  bn.movingMean.shape = movingShape bn.axis 0 bn.shape ∧
  bn.movingVar.shape = movingShape bn.axis 0 bn.shape

theorem decayTowards_get (bn : BN) (m : Arr) (hm : m.shape = movingShape bn.axis 0 bn.shape)
    (stat : List Nat → ℝ) {ch : List Nat} (h : ch ∈ indices (movingShape bn.axis 0 bn.shape)) :
    (decayTowards bn m stat).get ch = (1 - bn.decay) * m.get ch + bn.decay * stat ch := by
  unfold decayTowards
  rw [hm, get_map_indices _ _ h]
  have : m = ⟨movingShape bn.axis 0 bn.shape, m.data⟩ := by cases m; simp only at hm; rw [hm]
  ring

/-- **C56, update.** Updating on a batch moves the statistics of every channel to
`momentum * old + (1 - momentum) * new` where `new` is the mean (variance) of the channel over the
batch, and changes nothing else. -/
theorem C56_update_batched (bn : BN) (hbn : bn.WF) (batch : List Arr) :
    (bnUpdateBatched bn batch).WF ∧
    (∀ ch ∈ indices (movingShape bn.axis 0 bn.shape),
      (bnUpdateBatched bn batch).movingMean.get ch
        = (1 - bn.decay) * bn.movingMean.get ch + bn.decay * channelMean bn.axis bn.shape batch ch ∧
      (bnUpdateBatched bn batch).movingVar.get ch
        = (1 - bn.decay) * bn.movingVar.get ch + bn.decay * channelVar bn.axis bn.shape batch ch) ∧
    (bnUpdateBatched bn batch).beta = bn.beta ∧ (bnUpdateBatched bn batch).gamma = bn.gamma ∧
    (bnUpdateBatched bn batch).axis = bn.axis ∧ (bnUpdateBatched bn batch).eps = bn.eps ∧
    (bnUpdateBatched bn batch).decay = bn.decay ∧ (bnUpdateBatched bn batch).shape = bn.shape :=
  ⟨hbn, fun _ h => ⟨decayTowards_get bn _ hbn.1 _ h, decayTowards_get bn _ hbn.2 _ h⟩,
    rfl, rfl, rfl, rfl, rfl, rfl⟩

/-- **C56, convergence.** Updating `n` times on the same batch leaves a fraction `momentumⁿ` of the
initial error in the moving mean and variance. -/
theorem C56_update_converges (bn : BN) (hbn : bn.WF) (batch : List Arr) (n : Nat) (ch : List Nat)
    (h : ch ∈ indices (movingShape bn.axis 0 bn.shape)) :
    ((fun b => bnUpdateBatched b batch)^[n] bn).movingMean.get ch
        - channelMean bn.axis bn.shape batch ch
      = (1 - bn.decay) ^ n * (bn.movingMean.get ch - channelMean bn.axis bn.shape batch ch) ∧
    ((fun b => bnUpdateBatched b batch)^[n] bn).movingVar.get ch
        - channelVar bn.axis bn.shape batch ch
      = (1 - bn.decay) ^ n * (bn.movingVar.get ch - channelVar bn.axis bn.shape batch ch) := by
  induction n generalizing bn with
  | zero => simp
  | succ n ih =>
    rw [Function.iterate_succ_apply]
    obtain ⟨h1, h2, _, _, h5, _, h7, h8⟩ := C56_update_batched bn hbn batch
    have := ih (bnUpdateBatched bn batch) h1 (by rw [h5, h8]; exact h)
    rw [h5, h7, h8] at this
    rw [this.1, this.2, (h2 ch h).1, (h2 ch h).2]
    constructor <;> ring

/-- **C56, safety.** The moving variance never becomes negative, so inference never takes the square
root of a number below `ε`. -/
theorem C56_moving_var_nonneg (bn : BN) (hbn : bn.WF) (batch : List Arr) (h0 : 0 ≤ bn.decay)
    (h1 : bn.decay ≤ 1)
    (hv : ∀ ch ∈ indices (movingShape bn.axis 0 bn.shape), 0 ≤ bn.movingVar.get ch) :
    ∀ ch ∈ indices (movingShape bn.axis 0 bn.shape),
      0 ≤ (bnUpdateBatched bn batch).movingVar.get ch := by
  intro ch hch
  rw [((C56_update_batched bn hbn batch).2.1 ch hch).2]
  have := hv ch hch
  have := channelVar_nonneg bn.axis bn.shape batch ch
  have : 0 ≤ 1 - bn.decay := by linarith
  positivity

/-- On one example with its first axis among the normalised axes, the update is the batched update of
a batch of one. -/
theorem C56_update_single (bn : BN) (x : Arr) (hx : x.shape = bn.shape) (hs : bn.shape ≠ [])
    (h0 : 0 ∈ bn.axis) : bnUpdate bn x = .ok (bnUpdateBatched bn [x]) := by
  unfold bnUpdate
  rw [if_neg (by simp [hx, hs])]
  obtain ⟨d, s, hds⟩ := List.exists_cons_of_ne_nil hs
  have key : ∀ m ∈ indices (movingShape bn.axis 0 bn.shape), 0 :: m.tail = m := by
    intro m hm
    rw [hds] at hm
    simp only [movingShape, h0, if_true] at hm
    have := mem_indices.1 hm
    cases this with
    | cons h1 h2 => simp only [List.tail_cons]; congr 1; omega
  unfold bnUpdateBatched
  congr 2
  · simp only [decayTowards]
    congr 1
    exact List.map_congr_left fun m hm => by rw [key m hm]
  · simp only [decayTowards]
    congr 1
    exact List.map_congr_left fun m hm => by rw [key m hm]

/-- **C56 fails on one example otherwise**: with `axis = (1,)` and two channels along the first axis,
the statistics of the first channel are used for the second one too. -/
theorem C56_update_single_counterexample : ∃ (bn bn' : BN) (x : Arr), bn.WF ∧ x.WF ∧
    x.shape = bn.shape ∧ bnUpdate bn x = .ok bn' ∧ [1, 0] ∈ indices (movingShape bn.axis 0 bn.shape) ∧
    bn'.movingMean.get [1, 0] ≠ (1 - bn.decay) * bn.movingMean.get [1, 0]
      + bn.decay * channelMean bn.axis bn.shape [x] [1, 0] := by
  refine ⟨⟨none, none, ⟨[2, 1], [0, 0]⟩, ⟨[2, 1], [1, 1]⟩, [1], 1, 1, [2, 1]⟩, _, ⟨[2, 1], [3, 5]⟩,
    ⟨rfl, rfl⟩, rfl, rfl, rfl, by decide, ?_⟩
  simp [decayTowards, Arr.get, ravel, indices, movingShape, channelMean, channelEntries, channel, mean,
    List.range_succ]

/-- **Not the documented behaviour of `training=False`**: calling a `BatchNorm` layer outside training
still moves its statistics. -/
theorem C56_inference_updates_state (E : Env) : ∃ (bn bn' : BN) (x y : Arr), bn.WF ∧ x.WF ∧
    callAndUpdate E false (.batchNorm bn) [x] none = .ok (.one y, .batchNorm bn') ∧
    bn'.movingMean.get [0] ≠ bn.movingMean.get [0] := by
  let bn : BN := ⟨none, none, ⟨[1], [0]⟩, ⟨[1], [1]⟩, [0], 1, 1, [1]⟩
  refine ⟨bn, bnUpdateBatched bn [⟨[1], [3]⟩], ⟨[1], [3]⟩, bnInfer bn ⟨[1], [3]⟩, ⟨rfl, rfl⟩, rfl,
    ?_, ?_⟩
  · simp only [callAndUpdate, leafCall, leafUpdate, bnCall]
    rw [C56_update_single _ _ rfl (by simp [bn]) (by simp [bn])]
    rfl
  · simp [bn, bnUpdateBatched, decayTowards, Arr.get, ravel, indices, movingShape, channelMean,
      channelEntries, channel, mean, List.range_succ]

/-- The hypotheses can be met: two examples with two entries in one channel. -/
example : channelEntries [0] [2] [⟨[2], [1, 2]⟩, ⟨[2], [3, 4]⟩] [0] = [1, 2, 3, 4] := by
  simp [channelEntries, indices, channel, List.range_succ, Arr.get, ravel]

end Verif.NN
