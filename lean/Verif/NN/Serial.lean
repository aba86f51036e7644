import Verif.NN.Shapes

/-!
# C42: `Serial` is composition
-/

namespace Verif.NN

/-- The key handed to a layer: the second half of the split. -/
def subKey (E : Env) (r : Option Nat) : Option Nat := r.map fun k => (E.split k).2

/-- The key kept for the later layers: the first half of the split. -/
def nextKey (E : Env) (r : Option Nat) : Option Nat := r.map fun k => (E.split k).1

/-- Specification: a run of a sequence of layers. `a i` is what layer `i` is given, `a (i+1)` what it
returns, `r i` the key before it, `ls'[i]` the layer updated by that same call. -/
structure IsRun (E : Env) (tr : Bool) (ls : List Layer) (a : Nat → Out) (r : Nat → Option Nat)
    (ls' : List Layer) : Prop where
  length : ls'.length = ls.length
  step : ∀ i (h : i < ls.length) (h' : i < ls'.length),
    callAndUpdate E tr ls[i] (a i).args (subKey E (r i)) = .ok (a (i + 1), ls'[i])
  key : ∀ i, i < ls.length → r (i + 1) = nextKey E (r i)

theorem serialLoop_cons (E : Env) (tr : Bool) (l : Layer) (ls : List Layer) (a : Out)
    (r : Option Nat) : serialLoop E tr (l :: ls) a r = (do
      let x ← callAndUpdate E tr l a.args (subKey E r)
      let rest ← serialLoop E tr ls x.1 (nextKey E r)
      pure (rest.1, x.2 :: rest.2)) := by
  cases r <;> rfl

theorem serialLoop_nil (E : Env) (tr : Bool) (a : Out) (r : Option Nat) :
    serialLoop E tr [] a r = .ok (a, []) := by rw [serialLoop]

theorem serialLoop_run (E : Env) (tr : Bool) (ls : List Layer) : ∀ (a0 : Out) (r0 : Option Nat)
    (o : Out) (ls' : List Layer), serialLoop E tr ls a0 r0 = .ok (o, ls') ↔
    ∃ a r, a 0 = a0 ∧ r 0 = r0 ∧ a ls.length = o ∧ IsRun E tr ls a r ls' := by
  induction ls with
  | nil =>
    intro a0 r0 o ls'
    rw [serialLoop_nil]
    constructor
    · intro h
      cases h
      exact ⟨fun _ => a0, fun _ => r0, rfl, rfl, rfl, rfl, fun i h => absurd h (Nat.not_lt_zero _),
        fun i h => absurd h (Nat.not_lt_zero _)⟩
    · rintro ⟨a, r, h0, _, h1, h⟩
      have : ls' = [] := List.length_eq_zero_iff.1 h.length
      rw [← h0, ← h1, this]; rfl
  | cons l ls ih =>
    intro a0 r0 o ls'
    rw [serialLoop_cons]
    constructor
    · intro h
      simp only [bind, Except.bind] at h
      split at h
      · cases h
      rename_i x hx
      split at h
      · cases h
      rename_i rest hrest
      cases h
      obtain ⟨a, r, h0, h1, h2, h3⟩ := (ih _ _ rest.1 rest.2).1 hrest
      refine ⟨fun i => Nat.casesOn i a0 a, fun i => Nat.casesOn i r0 r, rfl, rfl, h2, ?_, ?_, ?_⟩
      · simp [h3.length]
      · intro i hi hi'
        cases i with
        | zero =>
          simp only [List.getElem_cons_zero]
          rw [h0]; exact hx
        | succ i =>
          simp only [List.getElem_cons_succ]
          exact h3.step i (by simpa using hi) (by simpa using hi')
      · intro i hi
        cases i with
        | zero => exact h1
        | succ i => exact h3.key i (by simpa using hi)
    · rintro ⟨a, r, h0, h1, h2, h⟩
      have hlen := h.length
      rcases ls' with _ | ⟨l', ls'⟩
      · simp at hlen
      have hstep := h.step 0 (by simp) (by simp)
      simp only [List.getElem_cons_zero, h0, h1] at hstep
      have hrest : serialLoop E tr ls (a 1) (nextKey E r0) = .ok (o, ls') := by
        refine (ih _ _ _ _).2 ⟨fun i => a (i + 1), fun i => r (i + 1), rfl, ?_, h2, ?_, ?_, ?_⟩
        · rw [← h1]; exact h.key 0 (by simp)
        · simpa using hlen
        · intro i hi hi'
          have := h.step (i + 1) (by simpa using hi) (by simpa using hi')
          simpa only [List.getElem_cons_succ] using this
        · intro i hi
          exact h.key (i + 1) (by simpa using hi)
      simp only [hstep, bind, Except.bind]
      simp only [Nat.zero_add, hrest]
      rfl

theorem cau_serial (E : Env) (tr : Bool) (ls : List Layer) (xs : List Arr) (r : Option Nat)
    (o : Out) (l' : Layer) : callAndUpdate E tr (.serial ls) xs r = .ok (o, l') ↔
    ls ≠ [] ∧ ∃ ls', l' = .serial ls' ∧ serialLoop E tr ls (.many xs) r = .ok (o, ls') := by
  rw [callAndUpdate]
  cases ls with
  | nil =>
    constructor
    · intro h; cases h
    · rintro ⟨h, _⟩; exact (h rfl).elim
  | cons l ls =>
    rw [if_neg (by simp)]
    simp only [bind, Except.bind, pure, Except.pure]
    constructor
    · intro h
      split at h
      · cases h
      rename_i x hx
      cases h
      exact ⟨by simp, _, rfl, hx⟩
    · rintro ⟨_, ls', rfl, h⟩
      rw [h]

/-- **C42, composition.** `call_and_update` on a `Serial` succeeds with output `o` and updated layer
`l'` exactly when its layers can be run one after another: the first layer is given the arguments,
each later one the output of the one before, each is updated by the call on its own input, each gets
the second half of a split of the key, and the last output is `o`. -/
theorem C42_serial_composes (E : Env) (tr : Bool) (ls : List Layer) (xs : List Arr)
    (rng : Option Nat) (o : Out) (l' : Layer) :
    callAndUpdate E tr (.serial ls) xs rng = .ok (o, l') ↔
    ls ≠ [] ∧ ∃ ls' a r, l' = .serial ls' ∧ a 0 = .many xs ∧ r 0 = rng ∧ a ls.length = o ∧
      IsRun E tr ls a r ls' := by
  rw [cau_serial]
  constructor
  · rintro ⟨h, ls', rfl, hr⟩
    obtain ⟨a, r, h0, h1, h2, h3⟩ := (serialLoop_run E tr ls _ _ _ _).1 hr
    exact ⟨h, ls', a, r, rfl, h0, h1, h2, h3⟩
  · rintro ⟨h, ls', a, r, rfl, h0, h1, h2, h3⟩
    exact ⟨h, ls', rfl, (serialLoop_run E tr ls _ _ _ _).2 ⟨a, r, h0, h1, h2, h3⟩⟩

/-! ### Nested `Serial`s -/

theorem serialLoop_args (E : Env) (tr : Bool) (l : Layer) (ls : List Layer) (a : Out)
    (r : Option Nat) : serialLoop E tr (l :: ls) (.many a.args) r = serialLoop E tr (l :: ls) a r := by
  rw [serialLoop_cons, serialLoop_cons]
  rfl

theorem serialLoop_append (E : Env) (tr : Bool) (ls1 ls2 : List Layer) : ∀ (a : Out),
    serialLoop E tr (ls1 ++ ls2) a none = (do
      let x ← serialLoop E tr ls1 a none
      let y ← serialLoop E tr ls2 x.1 none
      pure (y.1, x.2 ++ y.2)) := by
  induction ls1 with
  | nil =>
    intro a
    rw [serialLoop_nil]
    simp only [List.nil_append, bind, Except.bind, pure, Except.pure]
    rcases h : serialLoop E tr ls2 a none with e | ⟨y, z⟩ <;> rfl
  | cons l ls ih =>
    intro a
    rw [List.cons_append, serialLoop_cons, serialLoop_cons]
    simp only [bind, Except.bind]
    rcases h : callAndUpdate E tr l a.args (subKey E none) with e | x
    · rfl
    · simp only []
      have : nextKey E none = none := rfl
      rw [this, ih]
      simp only [bind, Except.bind]
      rcases h : serialLoop E tr ls x.1 none with e | y
      · rfl
      · simp only [pure, Except.pure]
        rcases h : serialLoop E tr ls2 y.1 none with e | z <;> rfl

theorem serialLoop_append_ok (E : Env) (tr : Bool) (ls1 ls2 : List Layer) (a o : Out)
    (us : List Layer) : serialLoop E tr (ls1 ++ ls2) a none = .ok (o, us) ↔
    ∃ b u1 u2, us = u1 ++ u2 ∧ serialLoop E tr ls1 a none = .ok (b, u1) ∧
      serialLoop E tr ls2 b none = .ok (o, u2) := by
  rw [serialLoop_append]
  simp only [bind, Except.bind, pure, Except.pure]
  constructor
  · intro h
    split at h
    · cases h
    rename_i x hx
    split at h
    · cases h
    rename_i y hy
    cases h
    exact ⟨x.1, x.2, y.2, rfl, hx, hy⟩
  · rintro ⟨b, u1, u2, rfl, h1, h2⟩
    rw [h1]; simp only [h2]

theorem serialLoop_single_ok (E : Env) (tr : Bool) (l : Layer) (a o : Out)
    (us : List Layer) : serialLoop E tr [l] a none = .ok (o, us) ↔
    ∃ u, us = [u] ∧ callAndUpdate E tr l a.args none = .ok (o, u) := by
  rw [serialLoop_cons]
  simp only [bind, Except.bind, pure, Except.pure, serialLoop_nil]
  have : subKey E none = none := rfl
  rw [this]
  constructor
  · intro h
    split at h
    · cases h
    rename_i x hx
    cases h
    exact ⟨x.2, rfl, hx⟩
  · rintro ⟨u, rfl, h⟩
    rw [h]

/-- **C42, nesting.** Without a key, a `Serial` inside a `Serial` computes what the flat sequence
computes, and updates the same layers to the same values. So `a >> b >> c`, `a >> (b >> c)` and
`Serial([a, b, c])` agree. -/
theorem C42_nested_serial (E : Env) (tr : Bool) (l1 l2 l3 : List Layer) (h2 : l2 ≠ [])
    (xs : List Arr) (o : Out) (u1 u2 u3 : List Layer) (e1 : u1.length = l1.length)
    (e2 : u2.length = l2.length) :
    callAndUpdate E tr (.serial (l1 ++ [.serial l2] ++ l3)) xs none
      = .ok (o, .serial (u1 ++ [.serial u2] ++ u3)) ↔
    callAndUpdate E tr (.serial (l1 ++ l2 ++ l3)) xs none = .ok (o, .serial (u1 ++ u2 ++ u3)) := by
  have hlen : ∀ (ls : List Layer) (a b : Out) (r : Option Nat) (us : List Layer),
      serialLoop E tr ls a r = .ok (b, us) → us.length = ls.length := by
    intro ls a b r us h
    obtain ⟨_, _, _, _, _, h⟩ := (serialLoop_run E tr ls _ _ _ _).1 h
    exact h.length
  have key : ∀ (a b : Out) (v : List Layer), serialLoop E tr [.serial l2] a none = .ok (b, v) ↔
      ∃ w, v = [.serial w] ∧ serialLoop E tr l2 a none = .ok (b, w) := by
    intro a b v
    rw [serialLoop_single_ok]
    obtain ⟨l, ls, rfl⟩ := List.exists_cons_of_ne_nil h2
    constructor
    · rintro ⟨u, rfl, h⟩
      obtain ⟨_, w, rfl, h'⟩ := (cau_serial ..).1 h
      rw [serialLoop_args] at h'
      exact ⟨w, rfl, h'⟩
    · rintro ⟨w, rfl, h⟩
      exact ⟨_, rfl, (cau_serial ..).2 ⟨by simp, w, rfl, by rw [serialLoop_args]; exact h⟩⟩
  rw [cau_serial, cau_serial]
  constructor
  · rintro ⟨_, ls', he, h⟩
    injection he with he
    subst he
    refine ⟨by simp [h2], _, rfl, ?_⟩
    obtain ⟨b, v, v3, hv, h12, h3⟩ := (serialLoop_append_ok ..).1 h
    obtain ⟨c, v1, v2, rfl, h1, h2'⟩ := (serialLoop_append_ok ..).1 h12
    obtain ⟨w, rfl, h2''⟩ := (key _ _ _).1 h2'
    have q1 := hlen _ _ _ _ _ h1
    obtain ⟨p1, p2⟩ := List.append_inj hv (by simp [q1, e1])
    obtain ⟨p3, p4⟩ := List.append_inj p1 (by simp [q1, e1])
    injection p4 with p4
    injection p4 with p4
    subst p2 p3 p4
    exact (serialLoop_append_ok ..).2 ⟨_, _, _, rfl,
      (serialLoop_append_ok ..).2 ⟨_, _, _, rfl, h1, h2''⟩, h3⟩
  · rintro ⟨_, ls', he, h⟩
    injection he with he
    subst he
    refine ⟨by simp, _, rfl, ?_⟩
    obtain ⟨b, v, v3, hv, h12, h3⟩ := (serialLoop_append_ok ..).1 h
    obtain ⟨c, v1, v2, rfl, h1, h2'⟩ := (serialLoop_append_ok ..).1 h12
    have q1 := hlen _ _ _ _ _ h1
    have q2 := hlen _ _ _ _ _ h2'
    obtain ⟨p1, p2⟩ := List.append_inj hv (by simp [q1, q2, e1, e2])
    obtain ⟨p3, p4⟩ := List.append_inj p1 (by simp [q1, e1])
    subst p2 p3 p4
    exact (serialLoop_append_ok ..).2 ⟨_, _, _, rfl,
      (serialLoop_append_ok ..).2 ⟨_, _, _, rfl, h1, (key _ _ _).2 ⟨_, rfl, h2'⟩⟩, h3⟩

/-! ### Specs -/

theorem specLoop_append (ts1 ts2 : List Template) : ∀ s : SpecOut,
    specLoop (ts1 ++ ts2) s = (specLoop ts1 s).bind (specLoop ts2) := by
  induction ts1 with
  | nil => intro s; rfl
  | cons t ts ih =>
    intro s
    simp only [List.cons_append, specLoop, bind]
    rcases h : spec t s.args with e | x
    · rfl
    · exact ih x

/-- **C42, specs.** The spec of a `Serial` is the composition of the specs of its elements. -/
theorem C42_spec_composes (t : Template) (ts : List Template) (ss : List Spec) :
    spec (.serial (t :: ts)) ss = (do
      let s ← spec t ss
      match ts with
      | [] => pure s
      | _ :: _ => spec (.serial ts) s.args) := by
  rw [spec, specLoop]
  simp only [bind, Except.bind, SpecOut.args]
  rcases h : spec t ss with e | x
  · rfl
  · cases ts with
    | nil => rfl
    | cons t' ts =>
      simp only []
      rw [spec, specLoop, specLoop]
      rfl

/-- **C42, shapes.** If a template without `-1` dimensions is initialised on the shapes of `xs` and
the layer is then called on `xs`, the output has exactly the shapes that `spec` predicts, provided that no `Deconv`
with strides gets an image without pixels. -/
theorem C42_shapes_partial (E : Env) (tr : Bool) (t : Template) (hn : NoInfer t) (k : Nat)
    (xs : List Arr) (hd : DeconvOk t (xs.map fun a => ofDims a.shape)) (rng : Option Nat) (l l' : Layer) (o : Out)
    (hi : init E t (some k) (xs.map Arr.shape) = .ok l)
    (hc : callAndUpdate E tr l xs rng = .ok (o, l')) :
    ∃ so, spec t (xs.map fun a => ofDims a.shape) = .ok so ∧
      so.args = o.args.map fun a => ofDims a.shape := by
  obtain ⟨so, h, ha⟩ := shape_aux E tr t hn k xs hd rng l l' o hi hc
  exact ⟨so, h, ha.args⟩

/-- A source of randomness for the examples: every key splits into itself plus 1 and plus 2. -/
def demoEnv : Env where
  split k := (2 * k + 1, 2 * k + 2)
  splitN k n := (List.range n).map (k + ·)
  bernoulli k _ n := List.replicate n (decide (k < 4))
  init _ s := List.replicate s.prod 1
  splitN_length := by simp
  bernoulli_length := by simp
  init_length := by simp

/-- **C42 fails with inferred dimensions**: `Reshape([-1])` promises dimension `-1`, whatever the
input. -/
theorem C42_shapes_counterexample (E : Env) : ∃ (t : Template) (x y : Arr) (l l' : Layer),
    x.WF ∧ init E t (some 0) [x.shape] = .ok l ∧
    callAndUpdate E false l [x] none = .ok (.one y, l') ∧
    spec t [ofDims x.shape] = .ok (.one [-1]) ∧ ofDims y.shape = [4] := by
  refine ⟨.reshape (.seq [-1]), ⟨[2, 2], [1, 2, 3, 4]⟩, ⟨[4], [1, 2, 3, 4]⟩, .reshape [-1],
    .reshape [-1], rfl, rfl, ?_, rfl, rfl⟩
  rw [cau_leaf _ _ (.reshape [-1]) trivial]
  simp [leafCau, leafCall, leafUpdate, reshapeApply, bind, Except.bind, pure, Except.pure]

/-- **C42 fails for `Deconv` with strides on an image without pixels**: for a 2×2 window, stride 2 and an image of 0
rows, `spec` says 0 rows and the layer returns one. -/
theorem C42_deconv_counterexample (E : Env) : ∃ (t : Template) (x y : Arr) (l l' : Layer),
    x.WF ∧ init E t (some 0) [x.shape] = .ok l ∧
    callAndUpdate E false l [x] none = .ok (.one y, l') ∧
    spec t [ofDims x.shape] = .ok (.one [0, 2, 1]) ∧ ofDims y.shape = [1, 2, 1] := by
  refine ⟨.deconv 1 (2, 2) (some (2, 2)) false false, ⟨[0, 1, 1], []⟩, ⟨[1, 2, 1], [0, 0]⟩,
    .deconv ⟨[2, 2, 1, 1], E.init (E.split 0).1 [2, 2, 1, 1]⟩ none (2, 2) false,
    .deconv ⟨[2, 2, 1, 1], E.init (E.split 0).1 [2, 2, 1, 1]⟩ none (2, 2) false, rfl, rfl, ?_, rfl, rfl⟩
  rw [cau_leaf _ _ (.deconv _ _ _ _) trivial]
  simp [leafCau, leafCall, leafUpdate, deconvApply, bind, Except.bind, pure, Except.pure, deconvOut, dilated,
    deconvTotal, indices, deconvPos, List.range_succ]

/-- An empty `Serial` cannot be built: `initialize` succeeds but flattening it raises. -/
theorem C42_empty_serial (E : Env) (k : Nat) (shapes : List (List Nat)) :
    init E (.serial []) (some k) shapes = .error .emptySerial := by
  rw [init]
  cases E.splitN k 0 <;> rfl

/-- `Reshape(n)` with an integer has a spec but cannot be initialised. -/
theorem C42_reshape_int (E : Env) (n : Int) (k : Nat) (s : List Nat) :
    spec (.reshape (.int n)) [ofDims s] = .ok (.one [n]) ∧
    init E (.reshape (.int n)) (some k) [s] = .error .notIterable := ⟨rfl, rfl⟩

/-- With a key, nesting matters: the two ways of nesting hand the last layer different keys, so a
`Dropout` there drops different entries. -/
theorem C42_nesting_changes_keys : ∃ (E : Env) (x y z : Arr) (a b : Layer),
    (∃ l', callAndUpdate E true (.serial [a, .serial [a, b]]) [x] (some 0) = .ok (.one y, l')) ∧
    (∃ l', callAndUpdate E true (.serial [a, a, b]) [x] (some 0) = .ok (.one z, l')) ∧ y ≠ z := by
  let E : Env := { demoEnv with
    bernoulli := fun k _ n => List.replicate n (decide (k < 10))
    bernoulli_length := by simp }
  have hs : ∀ k, E.split k = (2 * k + 1, 2 * k + 2) := fun _ => rfl
  have hrelu : ∀ (r : Option Nat), callAndUpdate E true (.act .relu) [⟨[1], [1]⟩] r
      = .ok (.one ⟨[1], [1]⟩, .act .relu) := by
    intro r
    rw [cau_leaf _ _ (.act .relu) trivial]
    simp [leafCau, leafCall, leafUpdate, actApply, bind, Except.bind, pure, Except.pure]
  have hdrop : ∀ (k : Nat), callAndUpdate E true (.dropout 1) [⟨[1], [1]⟩] (some k)
      = .ok (.one ⟨[1], [if k < 10 then 1 else 0]⟩, .dropout 1) := by
    intro k
    rw [cau_leaf _ _ (.dropout 1) trivial]
    simp [leafCau, leafCall, leafUpdate, dropoutApply, bind, Except.bind, pure, Except.pure, E]
  clear_value E
  refine ⟨E, ⟨[1], [1]⟩, ⟨[1], [0]⟩, ⟨[1], [1]⟩, .act .relu, .dropout 1,
    ⟨.serial [.act .relu, .serial [.act .relu, .dropout 1]], ?_⟩,
    ⟨.serial [.act .relu, .act .relu, .dropout 1], ?_⟩, ?_⟩
  · refine (cau_serial ..).2 ⟨by simp, _, rfl, ?_⟩
    simp only [serialLoop_cons, serialLoop_nil, Out.args, hrelu, bind, Except.bind]
    have : callAndUpdate E true (.serial [.act .relu, .dropout 1]) [⟨[1], [1]⟩]
        (subKey E (nextKey E (some 0))) = .ok (.one ⟨[1], [0]⟩, .serial [.act .relu, .dropout 1]) := by
      refine (cau_serial ..).2 ⟨by simp, _, rfl, ?_⟩
      simp only [serialLoop_cons, serialLoop_nil, Out.args, hrelu, bind, Except.bind]
      simp [subKey, nextKey, hdrop, hs, pure, Except.pure]
    rw [this]; rfl
  · refine (cau_serial ..).2 ⟨by simp, _, rfl, ?_⟩
    simp only [serialLoop_cons, serialLoop_nil, Out.args, hrelu, bind, Except.bind]
    simp [subKey, nextKey, hdrop, hs, pure, Except.pure]
  · intro h
    injection h with _ h
    simp at h

/-- The hypotheses of the theorems are met: `Dense(2) >> Relu` on a vector. -/
example : ∃ l l' o, init demoEnv (.serial [.dense 2, .act .relu]) (some 0) [[3]] = .ok l ∧
    callAndUpdate demoEnv false l [⟨[3], [1, 2, 3]⟩] none = .ok (o, l') ∧
    spec (.serial [.dense 2, .act .relu]) [ofDims [3]] = .ok (.one [2]) ∧
    NoInfer (.serial [.dense 2, .act .relu]) ∧ DeconvOk (.serial [.dense 2, .act .relu]) [ofDims [3]] := by
  refine ⟨.serial [.dense ⟨[3, 2], List.replicate 6 1⟩ ⟨[2], List.replicate 2 1⟩, .act .relu],
    .serial [.dense ⟨[3, 2], List.replicate 6 1⟩ ⟨[2], List.replicate 2 1⟩, .act .relu],
    .one ⟨[2], [7, 7]⟩, rfl, (cau_serial ..).2 ⟨by simp, _, rfl, ?_⟩, rfl,
    ⟨trivial, trivial, trivial⟩, by simp [DeconvOk, DeconvOkAll, leafDeconvOk]⟩
  rw [serialLoop_cons, cau_leaf _ _ (.dense _ _) trivial]
  simp [leafCau, leafCall, leafUpdate, denseApply, bind, Except.bind, pure, Except.pure, Out.args,
    serialLoop_cons, serialLoop_nil, cau_leaf _ _ (.act .relu) trivial, actApply,
    Finset.sum_range_succ, List.range_succ]
  norm_num

end Verif.NN
