/-
C89: a function wrapped in a primitive (`custom_inverse`, `call_bind`, layers, random variables) computes what the function
computes.
-/
import Verif.Util.Bind

namespace Verif.Util.Bind

variable {V W A : Type}

/-! ### Specification -/

/-- A tracer is sound: when tracing succeeds, evaluating the jaxpr with its constants on any arguments with the abstract
values of the trace is calling the function, and the structure of the result is the traced one. -/
def Sound (trace : Tracer V A) (aval : V → A) : Prop :=
  ∀ g avals J d, trace g avals = some (J, d) → ∀ vs : List V, vs.map aval = avals →
    J.eval J.literals vs = (g vs).map (·.1) ∧ ∀ r, g vs = some r → r.2 = d

/-- The arguments are alike: the same structure, and leaves with the same abstract values. -/
def Alike (aval : V → A) (args args' : List (Tree V)) : Prop :=
  treedefAll args' = treedefAll args ∧ (leavesAll args').map aval = (leavesAll args).map aval

/-- `f` can be traced at `args`. -/
def Traceable (trace : Tracer V A) (aval : V → A) (f : Fun V) (args : List (Tree V)) (kw : List (String × Tree V)) : Prop :=
  (trace (flatFun f kw (treedefAll args)) ((leavesAll args).map aval)).isSome

/-! ### Pytrees -/

mutual
theorem take_leaves (t : Tree V) (vs : List V) : take t.treedef (t.leaves ++ vs) = some (t, vs) := by
  cases t with
  | leaf v => simp [Tree.treedef, Tree.leaves, take]
  | node k ts => simp [Tree.treedef, Tree.leaves, take, takeAll_leaves ts vs]

theorem takeAll_leaves (ts : List (Tree V)) (vs : List V) :
    takeAll (treedefAll ts) (leavesAll ts ++ vs) = some (ts, vs) := by
  cases ts with
  | nil => simp [treedefAll, leavesAll, takeAll]
  | cons t ts =>
    simp only [treedefAll, leavesAll, takeAll, List.append_assoc, take_leaves t (leavesAll ts ++ vs),
      takeAll_leaves ts vs, Option.map_some]
end

/-- Flattening and unflattening a pytree gives it back. -/
theorem unflatten_leaves (t : Tree V) : unflatten t.treedef t.leaves = some t := by
  have := take_leaves t []
  rw [List.append_nil] at this
  simp [unflatten, this]

/-- As `unflatten_leaves`, for the arguments. -/
theorem unflattenAll_leaves (ts : List (Tree V)) : unflattenAll (treedefAll ts) (leavesAll ts) = some ts := by
  have := takeAll_leaves ts []
  rw [List.append_nil] at this
  simp [unflattenAll, this]

mutual
theorem treedef_take (d : TreeDef) (vs vs' : List V) (t : Tree V) (h : take d vs = some (t, vs')) :
    t.treedef = d ∧ t.leaves ++ vs' = vs := by
  cases d with
  | leaf u =>
    cases vs with
    | nil => simp [take] at h
    | cons v vs =>
      simp only [take, Option.some.injEq, Prod.mk.injEq] at h
      obtain ⟨rfl, rfl⟩ := h
      simp [Tree.treedef, Tree.leaves]
  | node k ds =>
    simp only [take, Option.map_eq_some_iff, Prod.mk.injEq] at h
    obtain ⟨⟨ts, vs''⟩, h, rfl, rfl⟩ := h
    have := treedef_takeAll ds vs vs'' ts h
    simp [Tree.treedef, Tree.leaves, this.1, this.2]

theorem treedef_takeAll (ds : List TreeDef) (vs vs' : List V) (ts : List (Tree V))
    (h : takeAll ds vs = some (ts, vs')) : treedefAll ts = ds ∧ leavesAll ts ++ vs' = vs := by
  cases ds with
  | nil =>
    simp only [takeAll, Option.some.injEq, Prod.mk.injEq] at h
    obtain ⟨rfl, rfl⟩ := h
    simp [treedefAll, leavesAll]
  | cons d ds =>
    simp only [takeAll] at h
    rcases ht : take d vs with _ | ⟨t, w⟩
    · rw [ht] at h; simp at h
    · rw [ht] at h
      simp only [Option.map_eq_some_iff, Prod.mk.injEq] at h
      obtain ⟨⟨us, w'⟩, h, rfl, rfl⟩ := h
      have h1 := treedef_take d vs w t ht
      have h2 := treedef_takeAll ds w w' us h
      simp [treedefAll, leavesAll, h1.1, h2.1, h2.2, h1.2]
end

/-- Unflattening succeeds only for the leaves of a pytree with that structure, and gives that pytree. -/
theorem unflatten_iff (d : TreeDef) (vs : List V) (t : Tree V) :
    unflatten d vs = some t ↔ t.treedef = d ∧ t.leaves = vs := by
  constructor
  · intro h
    simp only [unflatten] at h
    rcases ht : take d vs with _ | ⟨t', _ | ⟨v, w⟩⟩ <;> rw [ht] at h <;> simp only [reduceCtorEq, Option.some.injEq] at h
    subst h
    simpa using treedef_take d vs [] _ ht
  · rintro ⟨rfl, rfl⟩
    exact unflatten_leaves t

/-! ### Theorems -/

theorem flatFun_leaves (f : Fun V) (kw : List (String × Tree V)) (args : List (Tree V)) :
    flatFun f kw (treedefAll args) (leavesAll args) = (f args kw).map (fun out => (out.leaves, out.treedef)) := by
  simp only [flatFun, unflattenAll_leaves, Option.bind_eq_bind, Option.bind_some, Option.pure_def]
  rcases f args kw with _ | out <;> rfl

theorem impl_split (J : Jaxpr V) (vs : List V) :
    impl J.literals.length J.eval (J.literals ++ vs) = J.eval J.literals vs := by
  simp [impl]

/-- C89.  A function wrapped in a primitive is the function: the same result with the same structure, and it raises when
the function raises, whenever the function can be traced. -/
theorem initial_style_bind_partial (trace : Tracer V A) (aval : V → A) (hs : Sound trace aval) (f : Fun V)
    (args : List (Tree V)) (kw : List (String × Tree V)) (ht : Traceable trace aval f args kw) :
    initialStyleBind trace aval f args kw = f args kw := by
  obtain ⟨⟨J, d⟩, hJ⟩ := Option.isSome_iff_exists.1 ht
  obtain ⟨he, hd⟩ := hs _ _ J d hJ (leavesAll args) rfl
  simp only [initialStyleBind, hJ, Option.bind_eq_bind, Option.bind_some, impl_split, he]
  rw [flatFun_leaves] at hd ⊢
  rcases hf : f args kw with _ | out
  · rfl
  · rw [hf] at hd
    have := hd _ rfl
    simp only at this
    subst this
    simp [unflatten_leaves]

/-- C89.  A wrapped function returns a value only if the function returns that value. -/
theorem initial_style_bind_sound (trace : Tracer V A) (aval : V → A) (hs : Sound trace aval) (f : Fun V)
    (args : List (Tree V)) (kw : List (String × Tree V)) (out : Tree V)
    (h : initialStyleBind trace aval f args kw = some out) : f args kw = some out := by
  rcases hJ : trace (flatFun f kw (treedefAll args)) ((leavesAll args).map aval) with _ | ⟨J, d⟩
  · simp [initialStyleBind, hJ] at h
  · rw [← initial_style_bind_partial trace aval hs f args kw (by simp [Traceable, hJ])]
    exact h

/-- C89.  The equation that a wrapped function leaves in a traced program: bound once at `args`, it computes the flat
result of the function for all arguments like these. -/
theorem initial_style_equation (trace : Tracer V A) (aval : V → A) (hs : Sound trace aval) (f : Fun V)
    (args args' : List (Tree V)) (kw : List (String × Tree V)) (J : Jaxpr V) (d : TreeDef)
    (hJ : trace (flatFun f kw (treedefAll args)) ((leavesAll args).map aval) = some (J, d)) (ha : Alike aval args args') :
    (impl J.literals.length J.eval (J.literals ++ leavesAll args')).bind (unflatten d) = f args' kw := by
  obtain ⟨he, hd⟩ := hs _ _ J d hJ (leavesAll args') ha.2
  rw [impl_split, he]
  rw [← ha.1, flatFun_leaves] at hd ⊢
  rcases hf : f args' kw with _ | out
  · rfl
  · rw [hf] at hd
    have := hd _ rfl
    simp only at this
    subst this
    simp [unflatten_leaves]

/-- C89 (negation).  A function whose result has another structure for other values of the arguments (Python control flow
on the values) runs, but cannot be wrapped: `custom_inverse(f)(*args)` raises. -/
theorem initial_style_bind_raises (trace : Tracer V A) (aval : V → A) (hs : Sound trace aval) (f : Fun V)
    (args args' : List (Tree V)) (kw : List (String × Tree V)) (ha : Alike aval args args') (out out' : Tree V)
    (h : f args kw = some out) (h' : f args' kw = some out') (hne : out.treedef ≠ out'.treedef) :
    initialStyleBind trace aval f args kw = none := by
  rcases hJ : trace (flatFun f kw (treedefAll args)) ((leavesAll args).map aval) with _ | ⟨J, d⟩
  · simp [initialStyleBind, hJ]
  · exfalso
    have h1 := (hs _ _ J d hJ (leavesAll args) rfl).2 (out.leaves, out.treedef) (by rw [flatFun_leaves, h]; rfl)
    have h2 := (hs _ _ J d hJ (leavesAll args') ha.2).2 (out'.leaves, out'.treedef) (by
      rw [← ha.1, flatFun_leaves, h']; rfl)
    exact hne (h1.trans h2.symm)

theorem zip_map_fst_snd (kw : List (String × Tree V)) : (kw.map (·.1)).zip (kw.map (·.2)) = kw := by
  induction kw with
  | nil => rfl
  | cons p kw ih => simp [ih]

/-- C89.  A function bound with `call_bind` is the function, for all positional and keyword arguments, also if it has
Python control flow. -/
theorem call_bind_spec (f : Fun V) (args : List (Tree V)) (kw : List (String × Tree V)) :
    callBind f args kw = f args kw := by
  have h : unflattenAll (treedefAll (argTree args kw)) (leavesAll (argTree args kw)) = some (argTree args kw) :=
    unflattenAll_leaves _
  simp only [callBind, h, Option.bind_eq_bind, Option.bind_some]
  simp only [argTree, splitArgs, zip_map_fst_snd, Option.bind_some]
  rcases f args kw with _ | out
  · rfl
  · simp [unflatten_leaves]

/-! ### Witnesses -/

open Classical in
/-- The tracer that traces the functions whose result has one structure. -/
noncomputable def idealTrace (aval : V → A) : Tracer V A := fun g avals =>
  if h : ∃ d, ∀ vs, vs.map aval = avals → ∀ r, g vs = some r → r.2 = d then
    some (⟨[], fun _ vs => (g vs).map (·.1)⟩, h.choose)
  else none

/-- There is a sound tracer. -/
theorem ideal_sound (aval : V → A) : Sound (idealTrace aval) aval := by
  intro g avals J d h vs hv
  unfold idealTrace at h
  split at h
  · rename_i hex
    simp only [Option.some.injEq, Prod.mk.injEq] at h
    obtain ⟨rfl, rfl⟩ := h
    exact ⟨rfl, hex.choose_spec vs hv⟩
  · simp at h

/-- `f(t, scale) = [scale * t.x, t.y]` for a pair `t`; it raises for other arguments. -/
def exF : Fun Int := fun args kw =>
  match args, kw with
  | [.node "pair" [.leaf x, y]], [("scale", .leaf s)] => some (.node "list" [.leaf (s * x), y])
  | _, _ => none

def exArgs (x y z : Int) : List (Tree Int) := [.node "pair" [.leaf x, .node "list" [.leaf y, .leaf z]]]

theorem exArgs_of (t : List (Tree Int)) (h : treedefAll t = treedefAll (exArgs 1 2 3)) : ∃ x y z, t = exArgs x y z := by
  have hl : ∃ vs, leavesAll t = vs := ⟨_, rfl⟩
  obtain ⟨vs, hvs⟩ := hl
  have h1 := unflattenAll_leaves t
  rw [h, hvs] at h1
  match vs, h1 with
  | [], h1 => exact absurd (show (none : Option (List (Tree Int))) = some t from h1) (by simp)
  | [_], h1 => exact absurd (show (none : Option (List (Tree Int))) = some t from h1) (by simp)
  | [_, _], h1 => exact absurd (show (none : Option (List (Tree Int))) = some t from h1) (by simp)
  | [x, y, z], h1 =>
    have h2 : some (exArgs x y z) = some t := h1
    exact ⟨x, y, z, (Option.some.inj h2).symm⟩
  | _ :: _ :: _ :: _ :: _, h1 => exact absurd (show (none : Option (List (Tree Int))) = some t from h1) (by simp)

/-- The hypotheses of `initial_style_bind_partial` are met: `f((5, [6, 7]), scale=2) = [10, [6, 7]]`. -/
example : Sound (idealTrace (fun _ : Int => ())) (fun _ => ()) ∧
    Traceable (idealTrace (fun _ : Int => ())) (fun _ => ()) exF (exArgs 5 6 7) [("scale", .leaf 2)] ∧
    exF (exArgs 5 6 7) [("scale", .leaf 2)] = some (.node "list" [.leaf 10, .node "list" [.leaf 6, .leaf 7]]) := by
  refine ⟨ideal_sound _, ?_, rfl⟩
  unfold Traceable idealTrace
  rw [dif_pos]
  · rfl
  · refine ⟨.node "list" [.leaf (), .node "list" [.leaf (), .leaf ()]], fun vs _ r hr => ?_⟩
    simp only [flatFun, Option.bind_eq_bind, Option.pure_def] at hr
    rcases hu : unflattenAll (treedefAll (exArgs 5 6 7)) vs with _ | t
    · rw [hu] at hr; simp at hr
    · have ht : treedefAll t = treedefAll (exArgs 1 2 3) := by
        simp only [unflattenAll] at hu
        rcases hk : takeAll (treedefAll (exArgs 5 6 7)) vs with _ | ⟨t', _ | ⟨v, w⟩⟩ <;> rw [hk] at hu <;>
          simp only [reduceCtorEq, Option.some.injEq] at hu
        subst hu
        exact (treedef_takeAll _ _ _ _ hk).1
      obtain ⟨x, y, z, rfl⟩ := exArgs_of t ht
      rw [hu] at hr
      simp only [exArgs, exF, Option.bind_some, Option.some.injEq] at hr
      subst hr
      rfl

/-- `x if x > 0 else None`. -/
def exBranch : Fun Int := fun args _ =>
  match args with
  | [.leaf x] => some (if x > 0 then .leaf x else .node "None" [])
  | _ => none

/-- `initial_style_bind_raises`: `exBranch(1)` is 1, but the wrapped function raises; `call_bind` returns 1. -/
example (trace : Tracer Int Unit) (hs : Sound trace (fun _ => ())) :
    exBranch [.leaf 1] [] = some (.leaf 1) ∧ initialStyleBind trace (fun _ => ()) exBranch [.leaf 1] [] = none ∧
      callBind exBranch [.leaf 1] [] = some (.leaf 1) :=
  ⟨rfl, initial_style_bind_raises trace _ hs exBranch [.leaf 1] [.leaf 0] [] ⟨rfl, rfl⟩ (.leaf 1) (.node "None" []) rfl rfl
    (by simp [Tree.treedef]), by rw [call_bind_spec]; rfl⟩

end Verif.Util.Bind
