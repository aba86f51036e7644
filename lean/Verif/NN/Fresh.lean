import Verif.NN.BatchNorm
import Verif.NN.Pool
import Verif.NN.Entries

/-!
# C62: freshly initialised layers

What `initialize` puts into a layer, as seen by calling and updating it.
-/

namespace Verif.NN

open Finset

theorem getD_repl (a d : ℝ) {n i : Nat} (h : i < n) : (List.replicate n a).getD i d = a := by
  rw [List.getD_eq_getElem?_getD, List.getElem?_replicate, if_pos h]; rfl

/-- **C62**, `BatchNorm` without `center` and `scale`: before any update, inference divides by `sqrt(1 + eps)`: the
moving mean starts at 0 and the moving variance at 1. -/
theorem C62_batchnorm_fresh (E : Env) (key : Nat) (s axis : List Nat) (momentum eps : ℝ) :
    ∃ bn, leafInit E key s (.batchNorm axis momentum eps false false) = .ok (.batchNorm bn) ∧ ∀ x : Arr,
      x.shape = s → ∃ y, bnCall bn false x = .ok y ∧ y.shape = s ∧
        ∀ idx ∈ indices s, y.get idx = x.get idx / Real.sqrt (1 + eps) := by
  refine ⟨_, rfl, fun x hx => ?_⟩
  obtain ⟨y, h1, h2, _, h4⟩ := C56_inference_entry
    { beta := none, gamma := none
      movingMean := ⟨movingShape axis 0 s, List.replicate (movingShape axis 0 s).prod 0⟩
      movingVar := ⟨movingShape axis 0 s, List.replicate (movingShape axis 0 s).prod 1⟩
      axis := axis, eps := eps, decay := 1 - momentum, shape := s : BN } x hx
  refine ⟨y, h1, by rw [h2, hx], fun idx hi => ?_⟩
  rw [h4 idx (by rw [hx]; exact hi)]
  have hc := channel_mem axis 0 s idx hi
  have hr := ravel_lt hc
  simp only [gammaAt, betaAt, Arr.get, one_mul, add_zero]
  rw [getD_repl _ _ hr, getD_repl _ _ hr, sub_zero]

/-- **C62**, the first update of a fresh `BatchNorm`: the moving mean becomes `(1 - momentum)` times the mean of the
batch and the moving variance `momentum + (1 - momentum)` times its variance. -/
theorem C62_batchnorm_first_update (E : Env) (key : Nat) (s axis : List Nat) (momentum eps : ℝ)
    (center scale : Bool) (batch : List Arr) :
    ∃ bn, leafInit E key s (.batchNorm axis momentum eps center scale) = .ok (.batchNorm bn) ∧
      ∀ ch ∈ indices (movingShape axis 0 s),
        (bnUpdateBatched bn batch).movingMean.get ch = (1 - momentum) * channelMean axis s batch ch ∧
        (bnUpdateBatched bn batch).movingVar.get ch
          = momentum + (1 - momentum) * channelVar axis s batch ch := by
  refine ⟨_, rfl, fun ch hc => ?_⟩
  have hr := ravel_lt hc
  obtain ⟨_, h, _⟩ := C56_update_batched
    { beta := if center then some ⟨paramShape axis 0 s, E.init ((E.splitN key 4).getD 0 0) (paramShape axis 0 s)⟩ else none
      gamma := if scale then some ⟨paramShape axis 0 s, E.init ((E.splitN key 4).getD 1 0) (paramShape axis 0 s)⟩ else none
      movingMean := ⟨movingShape axis 0 s, List.replicate (movingShape axis 0 s).prod 0⟩
      movingVar := ⟨movingShape axis 0 s, List.replicate (movingShape axis 0 s).prod 1⟩
      axis := axis, eps := eps, decay := 1 - momentum, shape := s : BN } ⟨rfl, rfl⟩ batch
  obtain ⟨h1, h2⟩ := h ch hc
  refine ⟨h1.trans ?_, h2.trans ?_⟩
  · simp only [Arr.get]
    rw [getD_repl _ _ hr]; ring
  · simp only [Arr.get]
    rw [getD_repl _ _ hr]; ring

theorem windowShape_ones_same : ∀ (ns ws : List Nat), ns.length = ws.length → (∀ n ∈ ns, 0 < n) →
    (∀ w ∈ ws, 0 < w) → windowShape true ns ws (List.replicate ws.length 1) = ns
  | [], [], _, _, _ => rfl
  | n :: ns, w :: ws, h, hn, hw => by
    simp only [List.length_cons, List.replicate_succ, windowShape]
    rw [windowShape_ones_same ns ws (by simpa using h) (fun n h => hn n (by simp [h])) (fun w h => hw w (by simp [h])),
      C55_same_size_stride_one (hn n (by simp)) (hw w (by simp))]

theorem windowShape_ones_valid : ∀ (ns ws : List Nat), ns.length = ws.length → (∀ w ∈ ws, 0 < w) →
    windowShape false ns ws (List.replicate ws.length 1) = List.zipWith (fun n w => n + 1 - w) ns ws
  | [], [], _, _ => rfl
  | n :: ns, w :: ws, h, hw => by
    simp only [List.length_cons, List.replicate_succ, windowShape, List.zipWith_cons_cons]
    rw [windowShape_ones_valid ns ws (by simpa using h) (fun w h => hw w (by simp [h]))]
    congr 1
    have h0 : 0 < w := hw w (by simp)
    have h1 := fun o => C55_valid_size (n := n) (w := w) (s := 1) (o := o) Nat.one_pos h0
    have a := h1 (n + 1 - w)
    have b := h1 (windowOut false n w 1)
    have c := h1 (n - w)
    omega

/-- **C62**, a pooling layer made without `strides` moves its window by one: with `SAME` padding it keeps the shape,
with `VALID` every windowed axis shrinks by the window minus one. -/
theorem C62_pool_default_strides (E : Env) (key : Nat) (s : List Nat) (kind : PoolKind) (window : List Nat)
    (same tr : Bool) (rng : Option Nat) (hw : ∀ w ∈ window, 0 < w) :
    ∃ l, leafInit E key s (.pool kind window none same) = .ok l ∧ ∀ x y : Arr, x.WF → (∀ d ∈ x.shape, 0 < d) →
      leafCall E tr rng x l = .ok y →
        y.shape = if same then x.shape else List.zipWith (fun n w => n + 1 - w) x.shape (window ++ [1]) := by
  refine ⟨_, rfl, fun x y hx hn h => ?_⟩
  have h' : poolApply kind window (List.replicate window.length 1) same x = .ok y := h
  obtain ⟨_, hr⟩ := (poolApply_iff kind window _ same x y hx).1 h'
  have hs := (C55_pooling kind window _ same x y hx hw hn h').1
  unfold reduceWindow at hr
  split at hr
  · rename_i hc
    have hw' : ∀ w ∈ window ++ [1], 0 < w := by
      intro w h
      rcases List.mem_append.1 h with h | h
      · exact hw w h
      · simp at h; omega
    have e : List.replicate window.length 1 ++ [1] = List.replicate (window ++ [1]).length 1 := by
      rw [List.length_append, List.length_singleton, List.replicate_succ']
    rw [hs, e]
    cases same
    · exact windowShape_ones_valid _ _ hc.1 hw'
    · exact windowShape_ones_same _ _ hc.1 hn hw'
  · simp at hr

/-- **C62**, `Conv` made without `strides` keeps the height and width with `SAME` padding and gives
`(h - kh + 1, w - kw + 1)` with `VALID`; the last axis is the number of output channels. -/
theorem C62_conv_default_strides (E : Env) (key : Nat) (h w c kh kw o : Nat) (same useBias tr : Bool)
    (rng : Option Nat) (hh : 0 < h) (hw : 0 < w) (hkh : 0 < kh) (hkw : 0 < kw) :
    ∃ l, leafInit E key [h, w, c] (.conv o (kh, kw) none same useBias) = .ok l ∧ ∀ x : Arr, x.shape = [h, w, c] →
      ∃ y, leafCall E tr rng x l = .ok y ∧
        y.shape = if same then [h, w, o] else [h + 1 - kh, w + 1 - kw, o] := by
  refine ⟨_, rfl, fun x hx => ?_⟩
  simp only [leafCall, convApply, hx, Option.getD_none]
  refine ⟨_, rfl, ?_⟩
  cases same
  · have := windowShape_ones_valid [h, w] [kh, kw] rfl (by simp [hkh, hkw])
    simp only [windowShape, List.replicate, List.length_cons, List.length_nil, List.zipWith_cons_cons,
      List.zipWith_nil_left, List.cons.injEq, and_true] at this
    simp [this.1, this.2]
  · simp [C55_same_size_stride_one hh hkh, C55_same_size_stride_one hw hkw]

/-- **C62**, the parameters of `Dense` and `Conv`: the kernel and the bias have the shapes that the input calls for and
are drawn with the two halves of the key. -/
theorem C62_parameters (E : Env) (key : Nat) (s : List Nat) (m n : Nat) (h w c kh kw o : Nat)
    (st : Option (Nat × Nat)) (same : Bool) :
    leafInit E key (s ++ [m]) (.dense n) =
      .ok (.dense ⟨[m, n], E.init (E.split key).1 [m, n]⟩ ⟨[n], E.init (E.split key).2 [n]⟩) ∧
    ∃ kern bias, leafInit E key [h, w, c] (.conv o (kh, kw) st same true) =
        .ok (.conv kern (some bias) (st.getD (1, 1)) same) ∧
      kern = ⟨[kh, kw, c, o], E.init (E.split key).1 [kh, kw, c, o]⟩ ∧
      (bias.shape = [o] ∨ (o = 1 ∧ bias.shape = [])) ∧ bias.data = E.init (E.split key).2 bias.shape := by
  refine ⟨by simp [leafInit], _, _, rfl, rfl, ?_, rfl⟩
  by_cases ho : o = 1
  · right; simp [ho]
  · left; simp [ho]

/-- The hypotheses are met by a 3×3 window on a 5×5 image. -/
example (E : Env) : ∃ l, leafInit E 0 [5, 5, 1] (.conv 2 (3, 3) none false true) = .ok l ∧
    ∀ x : Arr, x.shape = [5, 5, 1] → ∃ y, leafCall E true none x l = .ok y ∧ y.shape = [3, 3, 2] :=
  C62_conv_default_strides E 0 5 5 1 3 3 2 false true true none (by decide) (by decide) (by decide) (by decide)

end Verif.NN
