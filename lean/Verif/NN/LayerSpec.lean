/-
C90: `state.spec` of initialised layers (oryx/experimental/nn/base.py:489-495, core/state/registrations.py:113-146).
-/
import Verif.NN.Serial

namespace Verif.NN

/-! ### Model -/

/-- `state.spec(layer)(x)`, `base.py:489-495`: `layer.spec(in_spec)`.  `spec` is a class method that also takes the
`init_args` of the template, which the layer does not have; only the classes that need none of them can be asked:
activations and `Flatten` (core.py:144-145, reshape.py:46-49), and `BatchNorm`, where they have defaults
(normalization.py:70-74).  The others raise `TypeError` (core.py:73, 115, reshape.py:82, convolution.py:103, 167,
pooling.py:69); so does `Serial`, which takes the spec for the list of its layers (combinator.py:46-48).
Simplification: one argument, no keyword arguments. -/
def layerSpec : Layer → Spec → Except Err SpecOut
  | .act _, s => .ok (.one s)
  | .flatten, s => .ok (.one [s.prod])
  | .batchNorm _, s => .ok (.one s)
  | _, _ => .error .arity

/-- `state.spec([layer, ...])(x)`, `list_spec` of `registrations.py:136-143`; a layer whose spec is not a single
spec takes its elements as arguments, which does not happen here. -/
def layerListSpec : List Layer → SpecOut → Except Err SpecOut
  | [], so => .ok so
  | l :: ls, so =>
    match so.args with
    | [s] => do
      let so' ← layerSpec l s
      layerListSpec ls so'
    | _ => .error .arity

/-- `state.spec((a, b, ...))(x)`, `tuple_spec` of `registrations.py:92-98`: the specs of the elements on the same input; an
empty tuple is an error. -/
def tupleSpec {α : Type} (elem : α → Spec → Except Err SpecOut) : List α → Spec → Except Err (List SpecOut)
  | [], _ => .error .arity
  | [a], s => (elem a s).map fun o => [o]
  | a :: b :: as, s => do
    let o ← elem a s
    let os ← tupleSpec elem (b :: as) s
    pure (o :: os)

/-! ### Specification -/

/-- The classes whose `spec` can be asked for without the arguments of the template. -/
def NoArgs : Template → Prop
  | .act _ => True
  | .flatten => True
  | .batchNorm .. => True
  | _ => False

instance (t : Template) : Decidable (NoArgs t) := by cases t <;> unfold NoArgs <;> infer_instance

/-- The templates and layers of a list correspond: each layer was initialised from its template, for some key and
shape. -/
inductive Inits (E : Env) : List Template → List Layer → Prop
  | nil : Inits E [] []
  | cons {t ts l ls} (k : Nat) (s : List Nat) (h : init E t (some k) [s] = .ok l) (hs : Inits E ts ls) :
      Inits E (t :: ts) (l :: ls)

/-! ### Theorems -/

/-- What is initialised from a template is a layer of its class. -/
theorem init_noArgs (E : Env) (t : Template) (k : Nat) (s : List Nat) (l : Layer)
    (h : init E t (some k) [s] = .ok l) :
    match t with
    | .act a => l = .act a
    | .flatten => l = .flatten
    | .batchNorm .. => ∃ bn, l = .batchNorm bn
    | _ => ∀ q, layerSpec l q = .error .arity := by
  cases t with
  | act a =>
    simp only [init, leafInit, Except.ok.injEq] at h
    exact h.symm
  | flatten =>
    simp only [init, leafInit, Except.ok.injEq] at h
    exact h.symm
  | batchNorm =>
    simp only [init, leafInit, Except.ok.injEq] at h
    exact ⟨_, h.symm⟩
  | dense d =>
    simp only [init, leafInit] at h
    split at h
    · simp at h
    · simp only [Except.ok.injEq] at h
      subst h
      intro q; rfl
  | dropout r =>
    simp only [init, leafInit, Except.ok.injEq] at h
    subst h
    intro q; rfl
  | reshape d =>
    cases d with
    | int n => simp [init, leafInit] at h
    | seq ds =>
      simp only [init, leafInit, Except.ok.injEq] at h
      subst h
      intro q; rfl
  | conv o f st p b =>
    simp only [init, leafInit] at h
    split at h
    · simp only [Except.ok.injEq] at h
      subst h
      intro q; rfl
    · simp at h
  | deconv o f st p b =>
    simp only [init, leafInit] at h
    split at h
    · simp only [Except.ok.injEq] at h
      subst h
      intro q; rfl
    · simp at h
  | pool kd w st p =>
    simp only [init, leafInit, Except.ok.injEq] at h
    subst h
    intro q; rfl
  | serial ts =>
    simp only [init, bind, Except.bind] at h
    split at h
    · simp at h
    · rename_i ls _
      cases ls with
      | nil => simp [throw, throwThe, MonadExceptOf.throw] at h
      | cons l' ls =>
        simp [pure, Except.pure] at h
        subst h
        intro q; rfl

/-- C90 (partial).  For activations, `Flatten` and `BatchNorm`, the spec of an initialised layer is the spec of its
template, for all inputs. -/
theorem C90_spec_partial (E : Env) (t : Template) (ht : NoArgs t) (k : Nat) (s : List Nat) (l : Layer)
    (h : init E t (some k) [s] = .ok l) (q : Spec) : layerSpec l q = spec t [q] := by
  have := init_noArgs E t k s l h
  cases t <;> simp only [NoArgs] at ht
  · rw [show l = _ from this]; simp [layerSpec, spec, leafSpec, Except.map]
  · rw [show l = _ from this]; simp [layerSpec, spec, leafSpec, Except.map]
  · obtain ⟨bn, rfl⟩ := this; simp [layerSpec, spec, leafSpec, Except.map]

/-- C90 (negation).  For all other layers (`Dense`, `Dropout`, `Reshape`, `Conv`, `Deconv`, the poolings and `Serial`)
`state.spec(layer)` raises, whatever the input. -/
theorem C90_spec_raises (E : Env) (t : Template) (ht : ¬ NoArgs t) (k : Nat) (s : List Nat) (l : Layer)
    (h : init E t (some k) [s] = .ok l) (q : Spec) : layerSpec l q = .error .arity := by
  have := init_noArgs E t k s l h
  cases t <;> simp only [NoArgs, not_true_eq_false] at ht <;> exact this q

/-- C90 (partial).  A spec that an initialised layer gives is right: calling the layer gives an output of that shape. -/
theorem C90_shape_partial (E : Env) (tr : Bool) (t : Template) (k : Nat) (x : Arr) (rng : Option Nat) (l l' : Layer)
    (o : Out) (h : init E t (some k) [x.shape] = .ok l) (so : SpecOut) (hs : layerSpec l (ofDims x.shape) = .ok so)
    (hc : callAndUpdate E tr l [x] rng = .ok (o, l')) : so.args = o.args.map fun a => ofDims a.shape := by
  by_cases ht : NoArgs t
  · rw [C90_spec_partial E t ht k _ l h] at hs
    have hn : NoInfer t := by cases t <;> simp only [NoArgs] at ht <;> simp [NoInfer, leafNoInfer]
    have hd : DeconvOk t ([x].map fun a => ofDims a.shape) := by
      cases t <;> simp only [NoArgs] at ht <;> simp [DeconvOk, leafDeconvOk]
    obtain ⟨so', h1, h2⟩ := C42_shapes_partial E tr t hn k [x] hd rng l l' o h hc
    have h3 : spec t [ofDims x.shape] = .ok so' := h1
    rw [hs, Except.ok.injEq] at h3
    subst h3
    exact h2
  · rw [C90_spec_raises E t ht k _ l h] at hs
    simp at hs

/-- C90 (partial).  A list of initialised layers of these classes has the spec of the list of templates. -/
theorem C90_list_partial (E : Env) (ts : List Template) (ls : List Layer) (hi : Inits E ts ls)
    (ht : ∀ t ∈ ts, NoArgs t) : ∀ q, layerListSpec ls (.one q) = specLoop ts (.one q) := by
  induction hi with
  | nil => intro q; rfl
  | @cons t ts l ls k s h hs ih =>
    intro q
    simp only [layerListSpec, specLoop, SpecOut.args, C90_spec_partial E t (ht t (by simp)) k s l h q, bind, Except.bind]
    have hone : ∃ q', spec t [q] = .ok (.one q') := by
      have h0 := ht t (by simp)
      cases t <;> simp only [NoArgs] at h0 <;> simp [spec, leafSpec, Except.map]
    obtain ⟨q', hq⟩ := hone
    rw [hq]
    exact ih (fun t' h' => ht t' (by simp [h'])) q'

/-- C90 (negation).  A list with any other layer has no spec. -/
theorem C90_list_raises (E : Env) (ts : List Template) (ls : List Layer) (hi : Inits E ts ls)
    (ht : ∃ t ∈ ts, ¬ NoArgs t) : ∀ q, layerListSpec ls (.one q) = .error .arity := by
  induction hi with
  | nil => simp at ht
  | @cons t ts l ls k s h hs ih =>
    intro q
    simp only [layerListSpec, SpecOut.args, bind, Except.bind]
    by_cases h0 : NoArgs t
    · have hone : ∃ q', spec t [q] = .ok (.one q') := by
        cases t <;> simp only [NoArgs] at h0 <;> simp [spec, leafSpec, Except.map]
      obtain ⟨q', hq⟩ := hone
      rw [C90_spec_partial E t h0 k s l h q, hq]
      refine ih ?_ q'
      obtain ⟨t', hm, hn⟩ := ht
      rcases List.mem_cons.1 hm with rfl | hm
      · exact absurd h0 hn
      · exact ⟨t', hm, hn⟩
    · rw [C90_spec_raises E t h0 k s l h q]

/-- C90 (partial).  A tuple of initialised layers of these classes has the specs of its templates. -/
theorem C90_tuple_partial (E : Env) (ts : List Template) (ls : List Layer) (hi : Inits E ts ls)
    (ht : ∀ t ∈ ts, NoArgs t) (q : Spec) : tupleSpec layerSpec ls q = tupleSpec (fun t s => spec t [s]) ts q := by
  induction hi with
  | nil => rfl
  | @cons t ts l ls k s h hs ih =>
    have h1 := C90_spec_partial E t (ht t (by simp)) k s l h q
    have h2 := ih (fun t' h' => ht t' (by simp [h']))
    cases hs with
    | nil => simp only [tupleSpec, h1]
    | cons k' s' h' hs' => simp only [tupleSpec, h1, h2]

/-- C90 (negation).  A tuple with any other layer has no spec. -/
theorem C90_tuple_raises (E : Env) (ts : List Template) (ls : List Layer) (hi : Inits E ts ls)
    (ht : ∃ t ∈ ts, ¬ NoArgs t) (q : Spec) : tupleSpec layerSpec ls q = .error .arity := by
  induction hi with
  | nil => simp at ht
  | @cons t ts l ls k s h hs ih =>
    by_cases h0 : NoArgs t
    · have ht' : ∃ t ∈ ts, ¬ NoArgs t := by
        obtain ⟨t', hm, hn⟩ := ht
        rcases List.mem_cons.1 hm with rfl | hm
        · exact absurd h0 hn
        · exact ⟨t', hm, hn⟩
      have h2 := ih ht'
      have hone : ∃ q', spec t [q] = .ok (.one q') := by
        cases t <;> simp only [NoArgs] at h0 <;> simp [spec, leafSpec, Except.map]
      obtain ⟨q', hq⟩ := hone
      have h1 := C90_spec_partial E t h0 k s l h q
      rw [hq] at h1
      cases hs with
      | nil => simp at ht'
      | cons k' s' h' hs' =>
        simp only [tupleSpec, h1, bind, Except.bind]
        rw [h2]
    · have h1 := C90_spec_raises E t h0 k s l h q
      cases hs with
      | nil => simp only [tupleSpec, h1]; rfl
      | cons k' s' h' hs' => simp only [tupleSpec, h1]; rfl

/-! ### Witnesses -/

/-- The tuple `(Flatten(), Relu())` of layers. -/
example : tupleSpec layerSpec [.flatten, .act .relu] [2, 3] = .ok [.one [6], .one [2, 3]] := by
  simp [tupleSpec, layerSpec, bind, Except.bind, pure, Except.pure, Except.map]


/-- `[Flatten(), BatchNorm()]` and their layers for an image of shape `[2, 3]`. -/
example : ∃ ls, Inits demoEnv [.flatten, .batchNorm [0] 0.9 0.1 true true] ls ∧
    (∀ t ∈ ([.flatten, .batchNorm [0] 0.9 0.1 true true] : List Template), NoArgs t) ∧
    layerListSpec ls (.one [2, 3]) = .ok (.one [6]) := by
  refine ⟨_, .cons 0 [2, 3] rfl (.cons 1 [6] rfl .nil), ?_, ?_⟩
  · intro t h
    simp only [List.mem_cons, List.not_mem_nil, or_false] at h
    rcases h with rfl | rfl <;> simp [NoArgs]
  · simp [layerListSpec, layerSpec, SpecOut.args, bind, Except.bind]

/-- `Dense(4)` on an input of shape `[3]`: the template has a spec, the layer has none. -/
example : ∃ l, init demoEnv (.dense 4) (some 0) [[3]] = .ok l ∧ spec (.dense 4) [[3]] = .ok (.one [4]) ∧
    ¬ NoArgs (.dense 4) ∧ (layerSpec l [3] = .error .arity) := by
  refine ⟨_, rfl, ?_, ?_, rfl⟩
  · simp [spec, leafSpec, Except.map]
  · simp [NoArgs]

end Verif.NN
