/-
C88: layers of oryx.experimental.nn in stateful functions: `nn.Dense(20)(x, init_key=key, name='dense')`
(oryx/experimental/nn/base.py:305-354, core/state/module.py:130-153).  The definitions of templates and layers are in
`State/Stmt.lean`.
-/
import Verif.State.StmtProps

namespace Verif.State

open Verif.Harvest

/-- `init(template, name=name)(key, x)` in a stateful function is what `Stmt.prog` makes of it. -/
theorem init_layer_prog {V K S X Y A B : Type} (T : Tmpl V K S X Y) (name : Option String) (args : A → K × X)
    (cont : A → Vars V (T.inner name).ns → B) : (Stmt.init (T.inner name) args cont).prog =
      .inline args (T.initP name) (fun a d => cont a (Vars.of (T.inner name).ns d)) := by
  cases name <;> rfl

theorem layer_merge {V : Type} (d : Dict V) (l : LayerVars V) (hd : ∀ n, n ≠ "params" → n ≠ "state" → d n = none) :
    mergeVars ["params", "state"] d l.dict = l.dict := by
  funext n
  by_cases h1 : n = "params"
  · simp [mergeVars, h1]
  · by_cases h2 : n = "state"
    · simp [mergeVars, h2]
    · simp [mergeVars, LayerVars.dict, h1, h2, hd n h1 h2]

/-- `layer(x)` in a stateful function is what `Stmt.prog` makes of it: the same output, the same assignments with the
same values in the same order, and the same errors. -/
theorem call_layer_trace {V K S X Y A B : Type} (T : Tmpl V K S X Y) (name : Option String)
    (layer : A → Vars V (T.inner name).ns) (arg : A → X) (cont : A → Y → B) (fuel : Nat) (a : A) :
    trace fuel (Stmt.call (K := K) (T.inner name) layer arg cont).prog a =
      trace fuel (.inline (fun a => ((layer a).1, arg a)) (T.callP name) cont) a := by
  have hm : ∀ l : LayerVars V, mergeVars ["params", "state"] (layer a).1 l.dict = l.dict := by
    intro l
    refine layer_merge _ l (fun n h1 h2 => ?_)
    have := (layer a).2 n
    rcases hc : (layer a).1 n with _ | v
    · rfl
    · exfalso
      have hmem : n ∈ ["params", "state"] := this.1 (by simp [hc])
      simp [h1, h2] at hmem
  simp only [Stmt.prog, Tmpl.callP, trace, Tmpl.inner, id]
  rcases hc : T.callAndUpdate (LayerVars.ofDict (layer a).1) (arg a) with e | ⟨y, l⟩
  · rfl
  · cases name with
    | none => simp [assignModule, assignAll, assignP, trace, hm]
    | some n => simp [assignModule, assignP, trace, hm]

/-- The sow equations of `layer(x)`. -/
theorem call_layer_sites {V K S X Y A B : Type} (T : Tmpl V K S X Y) (name : Option String)
    (layer : A → Vars V (T.inner name).ns) (arg : A → X) (cont : A → Y → B) :
    sites (Stmt.call (K := K) (T.inner name) layer arg cont).prog =
      sites (.inline (fun a => ((layer a).1, arg a)) (T.callP name) cont) := by
  cases name <;> rfl

/-- What `layer(x)` returns. -/
theorem call_layer_prog {V K S X Y A B : Type} (T : Tmpl V K S X Y) (name : Option String)
    (layer : A → Vars V (T.inner name).ns) (arg : A → X) (cont : A → Y → B) (fuel : Nat) (a : A) :
    run fuel (Stmt.call (K := K) (T.inner name) layer arg cont).prog a =
      run fuel (.inline (fun a => ((layer a).1, arg a)) (T.callP name) cont) a := by
  rw [run_eq_trace, run_eq_trace, call_layer_trace]

/-- `template(x, init_key=key, name=name)` (base.py:332-335): initialises the layer and calls it. -/
def Tmpl.stmt {V K S X Y A B : Type} (T : Tmpl V K S X Y) (name : Option String) (args : A → K × X) (cont : A → Y → B) :
    Stmt V K A B :=
  .seq (.init (T.inner name) args (fun a l => (a, l)))
    (.call (T.inner name) (fun p => p.2) (fun p => (args p.1).2) (fun p y => cont p.1 y))

/-- A line `x = template(x, init_key=key(k), name=name)` of a network written as a function. -/
structure Line (V K X : Type) : Type 1 where
  name : Option String
  S : Type
  T : Tmpl V K S X X
  key : K → K

/-- `def net(x, init_key): x = t1(x, init_key=.., name=..); x = t2(..); ..; return x`, e.g. `dense` of
function_test.py:226-230. -/
def net {V K X : Type} : List (Line V K X) → Stmt V K (K × X) X
  | [] => .code (.pure (fun a => .ok a.2))
  | L :: Ls => .seq (L.T.stmt L.name (fun a => (L.key a.1, a.2)) (fun a y => (a.1, y))) (net Ls)

/-! ### Specification -/

/-- Initialising the network: every layer is made for the output of the layers before it. -/
def netInit {V K X : Type} (k : K) : List (Line V K X) → X → Except RErr (X × List (LayerVars V) × List (LayerVars V))
  | [], x => .ok (x, [], [])
  | L :: Ls, x =>
    match L.T.fresh (L.key k) (L.T.specOf x) with
    | .error e => .error e
    | .ok l =>
      match L.T.callAndUpdate l x with
      | .error e => .error e
      | .ok (y, l') =>
        match netInit k Ls y with
        | .error e => .error e
        | .ok (z, ls, ls') => .ok (z, l :: ls, l' :: ls')

/-- Calling the network: the layers are called one after the other, and each one is updated with its own input. -/
def netCall {V K X : Type} : List (Line V K X) → List (LayerVars V) → X → Option (X × List (LayerVars V))
  | [], _, x => some (x, [])
  | _ :: _, [], _ => none
  | L :: Ls, l :: ls, x =>
    match L.T.callAndUpdate l x with
    | .error _ => none
    | .ok (y, l') => (netCall Ls ls y).map (fun q => (q.1, l' :: q.2))

/-- A history of updates of the network. -/
def netUpdates {V K X : Type} (Ls : List (Line V K X)) : List (LayerVars V) → List X → Option (List (LayerVars V))
  | ls, [] => some ls
  | ls, x :: xs =>
    match netCall Ls ls x with
    | none => none
    | some (_, ls') => netUpdates Ls ls' xs

/-- The state of the network: a layer with a name is kept under its name, a layer without a name as the two variables
`params` and `state`. -/
def netState {V K X : Type} : List (Line V K X) → List (LayerVars V) → Dict V
  | L :: Ls, l :: ls => fun n =>
    match L.name with
    | some m => if n = m then some (.dict l.dict) else netState Ls ls n
    | none => if n = "params" then some l.1 else if n = "state" then some l.2 else netState Ls ls n
  | _, _ => fun _ => none

/-- The names used by the layers. -/
def netNames {V K X : Type} : List (Line V K X) → List String
  | [] => []
  | L :: Ls => (match L.name with | some n => [n] | none => ["params", "state"]) ++ netNames Ls

/-- What a layer accepts has a shape for which it can be initialised. -/
def Fits {V K X : Type} (key0 : K) (L : Line V K X) : Prop :=
  ∀ l x y, L.T.callAndUpdate l x = .ok y → ∃ l0, L.T.fresh (L.key key0) (L.T.specOf x) = .ok l0

/-! ### Running the lines -/

theorem dict_names {V : Type} (l : LayerVars V) : HasNames l.dict ["params", "state"] := by
  intro n
  simp only [LayerVars.dict, List.mem_cons, List.not_mem_nil, or_false]
  by_cases h1 : n = "params"
  · simp [h1]
  · by_cases h2 : n = "state" <;> simp [h1, h2]

theorem vars_of_dict {V : Type} (l : LayerVars V) (d : Dict V) (h1 : d "params" = some l.1) (h2 : d "state" = some l.2) :
    (Vars.of ["params", "state"] d).1 = l.dict := by
  funext n
  simp only [Vars.of, LayerVars.dict, List.mem_cons, List.not_mem_nil, or_false]
  by_cases h : n = "params"
  · subst h; simp [h1]
  · by_cases h' : n = "state"
    · subst h'; simp [h2]
    · simp [h, h']

theorem inner_callAndUpdate {V K S X Y : Type} (T : Tmpl V K S X Y) (name : Option String) (l : LayerVars V) (x : X)
    (fuel : Nat) : ((T.inner (K := K) name).m.replace l.dict).callAndUpdate fuel x =
      match T.callAndUpdate l x with
      | .error e => .error (.running e)
      | .ok (y, l') => .ok (y, l'.dict) := by
  have hl : LayerVars.ofDict l.dict = l := rfl
  simp only [FModule.callAndUpdate, FModule.replace, Tmpl.inner, run, hl]
  rcases T.callAndUpdate l x with e | ⟨y, l'⟩
  · rfl
  · have hf : ["params", "state"].find? (fun n => (l.dict n).isNone) = none := by
      simp [LayerVars.dict]
    simp only [except_map_ok, hf, Except.ok.injEq, Prod.mk.injEq, true_and]
    funext n
    simp only [LayerVars.dict, List.contains_iff_mem, List.mem_cons, List.not_mem_nil, or_false]
    by_cases h : n = "params"
    · simp [h]
    · by_cases h' : n = "state" <;> simp [h, h']

/-- Where the state of a layer is found. -/
def Kept {V : Type} (held : Dict V) : Option String → LayerVars V → Prop
  | some n, l => held n = some (.dict l.dict)
  | none, l => held "params" = some l.1 ∧ held "state" = some l.2

theorem exec_fresh {V K S X Y A B : Type} (T : Tmpl V K S X Y) (name : Option String) (args : A → K × X)
    (cont : A → Y → B) (fuel : Nat) (a : A) (D W : Dict V) :
    (T.stmt name args cont).exec fuel (fun _ => none) a (D, W) =
      match T.fresh (args a).1 (T.specOf (args a).2) with
      | .error e => .error (.running e)
      | .ok l =>
        match T.callAndUpdate l (args a).2 with
        | .error e => .error (.running e)
        | .ok (y, l') => .ok (cont a y, over D (inherit name l.dict), over W (inherit name l'.dict)) := by
  have hs : slice name ["params", "state"] (fun _ => none : Dict V) = none := by
    cases name <;> rfl
  simp only [Tmpl.stmt, Stmt.exec, Tmpl.inner, run, Tmpl.build, hs, Option.getD_none]
  rcases T.fresh (args a).1 (T.specOf (args a).2) with e | l
  · rfl
  · have hv : (Vars.of ["params", "state"] l.dict).1 = l.dict := vars_of_dict l l.dict rfl rfl
    simp only [except_map_ok, hv]
    have := inner_callAndUpdate (K := K) T name l (args a).2 fuel
    simp only [Tmpl.inner] at this
    rw [this]
    rcases T.callAndUpdate l (args a).2 with e | ⟨y, l'⟩ <;> rfl

theorem exec_kept {V K S X Y A B : Type} (T : Tmpl V K S X Y) (name : Option String) (args : A → K × X)
    (cont : A → Y → B) (fuel : Nat) (held : Dict V) (l : LayerVars V) (hk : Kept held name l) (a : A) (D W : Dict V) :
    (T.stmt name args cont).exec fuel held a (D, W) =
      match T.fresh (args a).1 (T.specOf (args a).2) with
      | .error e => .error (.running e)
      | .ok _ =>
        match T.callAndUpdate l (args a).2 with
        | .error e => .error (.running e)
        | .ok (y, l') => .ok (cont a y, over D (inherit name l.dict), over W (inherit name l'.dict)) := by
  obtain ⟨d, hs, hd⟩ : ∃ d, slice name ["params", "state"] held = some d ∧
      (Vars.of ["params", "state"] d).1 = l.dict := by
    cases name with
    | none =>
      refine ⟨held, ?_, vars_of_dict l held hk.1 hk.2⟩
      have h1 := hk.1
      have h2 := hk.2
      simp [slice, h1, h2]
    | some n =>
      refine ⟨l.dict, ?_, vars_of_dict l l.dict rfl rfl⟩
      have h1 : held n = some (.dict l.dict) := hk
      simp [slice, h1]
  simp only [Tmpl.stmt, Stmt.exec, Tmpl.inner, run, Tmpl.build, hs, Option.getD_some]
  rcases T.fresh (args a).1 (T.specOf (args a).2) with e | l0
  · rfl
  · simp only [except_map_ok, hd]
    have := inner_callAndUpdate (K := K) T name l (args a).2 fuel
    simp only [Tmpl.inner] at this
    rw [this]
    rcases T.callAndUpdate l (args a).2 with e | ⟨y, l'⟩ <;> rfl

end Verif.State
