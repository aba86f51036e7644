/-!
# C43: layers and modules as pytrees

`/repo/oryx/core/pytree.py`, `/repo/oryx/core/state/function.py:136-222`,
`/repo/oryx/experimental/nn/base.py:143-302`, `/repo/oryx/experimental/nn/combinator.py:50-100`,
`/repo/oryx/core/serialize.py`.
-/

namespace Verif.NN.Tree

/-- The Python values that occur as layers and modules and inside them. `L` is the type of leaves
(arrays), `A` the type of static data (`info` tuples, jaxprs, trees). Simplifications: a namedtuple is a
tuple (its class is static); a dictionary is its list of items in key order (JAX sorts the keys, and
equality of dictionaries ignores order). `Serial` overrides the property `state`, so its own `_state`
cannot be observed and is left out; `info = none` is the empty tuple.
(base.py:143-302, combinator.py:26-100, function.py:156-222). -/
inductive Obj (L A : Type) where
  | leaf (v : L)
  | none
  | tuple (xs : List (Obj L A))
  | dict (keys : List String) (vals : List (Obj L A))
  /-- an instance of a subclass of `Layer` that inherits `flatten` -/
  | layer (cls : String) (params state : Obj L A) (info : A) (name : Option String)
  /-- an instance of `Serial` -/
  | serial (layers : List (Obj L A)) (info : Option A) (name : Option String)
  /-- a `FunctionModule`: variable names and values in insertion order -/
  | fn (keys : List String) (vals : List (Obj L A)) (jaxpr inTree outTree : A) (name : Option String)

/-- The registered classes (base.py:143, combinator.py:26, function.py:156). -/
inductive Cls where
  | layer (cls : String)
  | serial
  | fn
  deriving DecidableEq

/-- The static data returned by `flatten` (base.py:282-286, combinator.py:84-89, function.py:199-202). -/
inductive Data (A : Type) where
  | layer (info : A) (name : Option String)
  | serial (clss : List Cls) (datas : List (Data A)) (name : Option String)
  | fn (keys : List String) (jaxpr inTree outTree : A) (name : Option String)

/-- The exceptions (combinator.py:87; JAX tree errors). -/
inductive Err where
  /-- `not enough values to unpack`: `zip(*())`, `combinator.py:87` -/
  | unpack
  /-- no attribute `flatten` -/
  | attr
  /-- wrong number of leaves or data of another class -/
  | structure
  deriving DecidableEq

variable {L A : Type}

/-- `__class__` (combinator.py:86). -/
def clsOf : Obj L A → Option Cls
  | .layer c .. => some (.layer c)
  | .serial .. => some .serial
  | .fn .. => some .fn
  | _ => Option.none

mutual
/-- The methods `flatten`: `base.py:282-286`, `combinator.py:84-89`, `function.py:199-202`. The last
component is the class. -/
def flatten : Obj L A → Except Err (List (Obj L A) × Data A × Cls)
  | .layer c p s info name => .ok ([p, s], .layer info name, .layer c)
  | .serial ls _ name => do
    let r ← flattenAll ls
    if r.isEmpty then throw .unpack
    pure (r.map (fun x => .tuple x.1), .serial (r.map (·.2.2)) (r.map (·.2.1)) name, .serial)
  | .fn ks vs j i o name => .ok (vs, .fn ks j i o name, .fn)
  | _ => .error .attr
/-- `tuple(l.flatten() for l in self.params)` (combinator.py:85-87). -/
def flattenAll : List (Obj L A) → Except Err (List (List (Obj L A) × Data A × Cls))
  | [] => .ok []
  | x :: xs => do
    let r ← flatten x
    let rs ← flattenAll xs
    pure (r :: rs)
end

mutual
/-- The class methods `unflatten`: `base.py:288-294`, `combinator.py:91-100`, `function.py:204-212`. -/
def unflatten : Cls → Data A → List (Obj L A) → Except Err (Obj L A)
  | .layer c, .layer info name, [p, s] => .ok (.layer c p s info name)
  | .serial, .serial clss datas name, xs => do
    let ls ← unflattenAll clss datas xs
    pure (.serial ls .none name)
  | .fn, .fn ks j i o name, vs => .ok (.fn (ks.take vs.length) (vs.take ks.length) j i o name)
  | _, _, _ => .error .structure
/-- `tuple(c.unflatten(d, x) for c, x, d in zip(children_cls, xs, children_data))` (combinator.py:91-100). -/
def unflattenAll : List Cls → List (Data A) → List (Obj L A) → Except Err (List (Obj L A))
  | c :: cs, d :: ds, .tuple x :: xs => do
    let r ← unflatten c d x
    let rs ← unflattenAll cs ds xs
    pure (r :: rs)
  | [], _, _ => .ok []
  | _, [], _ => .ok []
  | _, _, [] => .ok []
  | _, _, _ => .error .structure
end

mutual
/-- No `Serial` carries an `info` (`initialize` never sets one, `combinator.py:31-43`), dictionaries
and function modules have one value per key. -/
def WF : Obj L A → Prop
  | .leaf _ => True
  | .none => True
  | .tuple xs => WFAll xs
  | .dict ks vs => ks.length = vs.length ∧ WFAll vs
  | .layer _ p s _ _ => WF p ∧ WF s
  | .serial ls info _ => info = Option.none ∧ WFAll ls
  | .fn ks vs _ _ _ _ => ks.length = vs.length ∧ WFAll vs
/-- All of a list. -/
def WFAll : List (Obj L A) → Prop
  | [] => True
  | x :: xs => WF x ∧ WFAll xs
end

mutual
theorem roundtrip_aux : ∀ (o : Obj L A) (xs : List (Obj L A)) (d : Data A) (c : Cls),
    WF o → flatten o = .ok (xs, d, c) → unflatten c d xs = .ok o
  | .leaf v, xs, d, c, hw, h => by simp only [flatten] at h; cases h
  | .none, xs, d, c, hw, h => by simp only [flatten] at h; cases h
  | .tuple _, xs, d, c, hw, h => by simp only [flatten] at h; cases h
  | .dict _ _, xs, d, c, hw, h => by simp only [flatten] at h; cases h
  | .layer c' p s info name, xs, d, c, hw, h => by
    simp only [flatten] at h; cases h; rfl
  | .fn ks vs j i o name, xs, d, c, hw, h => by
    simp only [flatten] at h; cases h
    simp only [WF] at hw
    simp only [unflatten]
    rw [List.take_of_length_le (by omega), List.take_of_length_le (by omega)]
  | .serial ls info name, xs, d, c, hw, h => by
    simp only [flatten, bind, Except.bind] at h
    split at h
    · cases h
    rename_i r hr
    split at h
    · cases h
    cases h
    simp only [WF] at hw
    have := roundtripAll_aux ls r hw.2 hr
    simp only [unflatten, bind, Except.bind]
    rw [this, hw.1]; rfl
theorem roundtripAll_aux : ∀ (ls : List (Obj L A)) (r : List (List (Obj L A) × Data A × Cls)),
    WFAll ls → flattenAll ls = .ok r →
    unflattenAll (r.map (·.2.2)) (r.map (·.2.1)) (r.map fun x => .tuple x.1) = .ok ls
  | [], r, hw, h => by simp only [flattenAll] at h; cases h; rfl
  | x :: xs, r, hw, h => by
    simp only [flattenAll, bind, Except.bind] at h
    split at h
    · cases h
    rename_i a ha
    split at h
    · cases h
    rename_i as has
    cases h
    simp only [WFAll] at hw
    simp only [List.map_cons, unflattenAll, bind, Except.bind]
    rw [roundtrip_aux x a.1 a.2.1 a.2.2 hw.1 ha]
    simp only
    rw [roundtripAll_aux xs as hw.2 has]; rfl
end

/-- **C43, one level.** `cls.unflatten(data, xs)` of what `flatten` returned is the object. `_partial`:
`Serial`s with an `info` are excluded, and an empty `Serial` cannot be flattened. -/
theorem C43_flatten_unflatten_partial (o : Obj L A) (hw : WF o) (xs : List (Obj L A)) (d : Data A)
    (c : Cls) (h : flatten o = .ok (xs, d, c)) : unflatten c d xs = .ok o ∧ clsOf o = some c := by
  refine ⟨roundtrip_aux o xs d c hw h, ?_⟩
  cases o <;> simp only [flatten] at h
  all_goals first | cases h; rfl | skip
  all_goals first | (cases h; done) | skip
  simp only [bind, Except.bind] at h
  split at h
  · cases h
  split at h
  · cases h
  cases h; rfl

/-! ### `jax.tree_util` -/

/-- A tree definition of JAX (JAX; registered at pytree.py:29-35). -/
inductive TreeDef (A : Type) where
  | leaf
  | none
  | tuple (ts : List (TreeDef A))
  | dict (keys : List String) (ts : List (TreeDef A))
  | node (cls : Cls) (data : Data A) (ts : List (TreeDef A))

mutual
/-- `tree_util.tree_flatten`: registered classes (`pytree.py:29-35`) go through their `flatten`. -/
inductive TreeFlat : Obj L A → List L → TreeDef A → Prop
  | leaf (v : L) : TreeFlat (.leaf v) [v] .leaf
  | none : TreeFlat .none [] .none
  | tuple {xs ls ts} (h : TreeFlatAll xs ls ts) : TreeFlat (.tuple xs) ls (.tuple ts)
  | dict {ks xs ls ts} (h : TreeFlatAll xs ls ts) : TreeFlat (.dict ks xs) ls (.dict ks ts)
  | node {o xs ls ts d c} (hf : flatten o = .ok (xs, d, c)) (h : TreeFlatAll xs ls ts) :
      TreeFlat o ls (.node c d ts)
/-- Several values, leaves concatenated (JAX, used by serialize.py:26-32). -/
inductive TreeFlatAll : List (Obj L A) → List L → List (TreeDef A) → Prop
  | nil : TreeFlatAll [] [] []
  | cons {x xs l ls t ts} (h : TreeFlat x l t) (hs : TreeFlatAll xs ls ts) :
      TreeFlatAll (x :: xs) (l ++ ls) (t :: ts)
end

mutual
/-- `tree_util.tree_unflatten`: also returns the leaves that are left (JAX, used by serialize.py:26-32). -/
def treeUnflatten : TreeDef A → List L → Except Err (Obj L A × List L)
  | .leaf, v :: ls => .ok (.leaf v, ls)
  | .leaf, [] => .error .structure
  | .none, ls => .ok (.none, ls)
  | .tuple ts, ls => do
    let r ← treeUnflattenAll ts ls
    pure (.tuple r.1, r.2)
  | .dict ks ts, ls => do
    let r ← treeUnflattenAll ts ls
    pure (.dict ks r.1, r.2)
  | .node c d ts, ls => do
    let r ← treeUnflattenAll ts ls
    let o ← unflatten c d r.1
    pure (o, r.2)
/-- Several trees (JAX). -/
def treeUnflattenAll : List (TreeDef A) → List L → Except Err (List (Obj L A) × List L)
  | [], ls => .ok ([], ls)
  | t :: ts, ls => do
    let r ← treeUnflatten t ls
    let rs ← treeUnflattenAll ts r.2
    pure (r.1 :: rs.1, rs.2)
end

mutual
/-- Specification: the object with every leaf replaced. -/
def Obj.map {M : Type} (f : L → M) : Obj L A → Obj M A
  | .leaf v => .leaf (f v)
  | .none => .none
  | .tuple xs => .tuple (mapAll f xs)
  | .dict ks vs => .dict ks (mapAll f vs)
  | .layer c p s info name => .layer c (p.map f) (s.map f) info name
  | .serial ls info name => .serial (mapAll f ls) info name
  | .fn ks vs j i o name => .fn ks (mapAll f vs) j i o name
/-- In a list (JAX `tree_map`). -/
def mapAll {M : Type} (f : L → M) : List (Obj L A) → List (Obj M A)
  | [] => []
  | x :: xs => x.map f :: mapAll f xs
end

theorem mapAll_eq {M : Type} (f : L → M) (xs : List (Obj L A)) : mapAll f xs = xs.map (Obj.map f) := by
  induction xs with
  | nil => rfl
  | cons x xs ih => simp only [mapAll, List.map_cons, ih]

mutual
theorem WF_map {M : Type} (f : L → M) : ∀ o : Obj L A, WF o → WF (o.map f)
  | .leaf _, _ => by simp only [Obj.map, WF]
  | .none, _ => by simp only [Obj.map, WF]
  | .tuple xs, h => by simp only [Obj.map, WF] at h ⊢; exact WFAll_map f xs h
  | .dict ks vs, h => by
    simp only [Obj.map, WF] at h ⊢
    exact ⟨by rw [mapAll_eq, List.length_map]; exact h.1, WFAll_map f vs h.2⟩
  | .layer c p s info name, h => by
    simp only [Obj.map, WF] at h ⊢; exact ⟨WF_map f p h.1, WF_map f s h.2⟩
  | .serial ls info name, h => by
    simp only [Obj.map, WF] at h ⊢; exact ⟨h.1, WFAll_map f ls h.2⟩
  | .fn ks vs j i o name, h => by
    simp only [Obj.map, WF] at h ⊢
    exact ⟨by rw [mapAll_eq, List.length_map]; exact h.1, WFAll_map f vs h.2⟩
theorem WFAll_map {M : Type} (f : L → M) : ∀ xs : List (Obj L A), WFAll xs → WFAll (mapAll f xs)
  | [], _ => by simp only [mapAll, WFAll]
  | x :: xs, h => by simp only [mapAll, WFAll] at h ⊢; exact ⟨WF_map f x h.1, WFAll_map f xs h.2⟩
end

mutual
theorem flatten_map {M : Type} (f : L → M) : ∀ (o : Obj L A) (xs : List (Obj L A)) (d : Data A)
    (c : Cls), flatten o = .ok (xs, d, c) → flatten (o.map f) = .ok (mapAll f xs, d, c)
  | .leaf v, xs, d, c, h => by simp only [flatten] at h; cases h
  | .none, xs, d, c, h => by simp only [flatten] at h; cases h
  | .tuple _, xs, d, c, h => by simp only [flatten] at h; cases h
  | .dict _ _, xs, d, c, h => by simp only [flatten] at h; cases h
  | .layer c' p s info name, xs, d, c, h => by
    simp only [flatten] at h; cases h; rfl
  | .fn ks vs j i o name, xs, d, c, h => by
    simp only [flatten] at h; cases h; rfl
  | .serial ls info name, xs, d, c, h => by
    simp only [flatten, bind, Except.bind] at h
    split at h
    · cases h
    rename_i r hr
    split at h
    · cases h
    rename_i he
    cases h
    have := flattenAll_map f ls r hr
    simp only [Obj.map, flatten, bind, Except.bind, this]
    rw [if_neg (by simpa using he)]
    simp only [pure, Except.pure, List.map_map, mapAll_eq]
    congr 2
    exact List.map_congr_left fun x _ => by simp [Obj.map, mapAll_eq]
theorem flattenAll_map {M : Type} (f : L → M) : ∀ (ls : List (Obj L A))
    (r : List (List (Obj L A) × Data A × Cls)), flattenAll ls = .ok r →
    flattenAll (mapAll f ls) = .ok (r.map fun x => (mapAll f x.1, x.2))
  | [], r, h => by simp only [flattenAll] at h; cases h; rfl
  | x :: xs, r, h => by
    simp only [flattenAll, bind, Except.bind] at h
    split at h
    · cases h
    rename_i a ha
    split at h
    · cases h
    rename_i as has
    cases h
    simp only [mapAll, flattenAll, bind, Except.bind]
    rw [flatten_map f x a.1 a.2.1 a.2.2 ha]
    simp only
    rw [flattenAll_map f xs as has]; rfl
end

mutual
theorem WF_flatten : ∀ (o : Obj L A) (xs : List (Obj L A)) (d : Data A) (c : Cls),
    WF o → flatten o = .ok (xs, d, c) → WFAll xs
  | .leaf v, xs, d, c, hw, h => by simp only [flatten] at h; cases h
  | .none, xs, d, c, hw, h => by simp only [flatten] at h; cases h
  | .tuple _, xs, d, c, hw, h => by simp only [flatten] at h; cases h
  | .dict _ _, xs, d, c, hw, h => by simp only [flatten] at h; cases h
  | .layer c' p s info name, xs, d, c, hw, h => by
    simp only [flatten] at h; cases h
    simp only [WF] at hw
    simp only [WFAll]; exact ⟨hw.1, hw.2, trivial⟩
  | .fn ks vs j i o name, xs, d, c, hw, h => by
    simp only [flatten] at h; cases h
    simp only [WF] at hw; exact hw.2
  | .serial ls info name, xs, d, c, hw, h => by
    simp only [flatten, bind, Except.bind] at h
    split at h
    · cases h
    rename_i r hr
    split at h
    · cases h
    cases h
    simp only [WF] at hw
    exact WF_flattenAll ls r hw.2 hr
theorem WF_flattenAll : ∀ (ls : List (Obj L A)) (r : List (List (Obj L A) × Data A × Cls)),
    WFAll ls → flattenAll ls = .ok r → WFAll (r.map fun x => Obj.tuple x.1)
  | [], r, hw, h => by simp only [flattenAll] at h; cases h; simp only [List.map_nil, WFAll]
  | x :: xs, r, hw, h => by
    simp only [flattenAll, bind, Except.bind] at h
    split at h
    · cases h
    rename_i a ha
    split at h
    · cases h
    rename_i as has
    cases h
    simp only [WFAll] at hw
    simp only [List.map_cons, WFAll, WF]
    exact ⟨WF_flatten x a.1 a.2.1 a.2.2 hw.1 ha, WF_flattenAll xs as hw.2 has⟩
end

mutual
theorem treemap_aux {M : Type} (f : L → M) : ∀ {o : Obj L A} {ls : List L} {t : TreeDef A},
    TreeFlat o ls t → WF o → ∀ rest : List M,
    treeUnflatten t (ls.map f ++ rest) = .ok (o.map f, rest)
  | _, _, _, .leaf v, _, rest => by
    simp only [List.map_cons, List.map_nil, List.cons_append, List.nil_append, treeUnflatten, Obj.map]
  | _, _, _, .none, _, rest => by simp only [List.map_nil, List.nil_append, treeUnflatten, Obj.map]
  | _, _, _, .tuple h, hw, rest => by
    simp only [WF] at hw
    simp only [treeUnflatten, treemapAll_aux f h hw rest, bind, Except.bind, Obj.map]; rfl
  | _, _, _, .dict h, hw, rest => by
    simp only [WF] at hw
    simp only [treeUnflatten, treemapAll_aux f h hw.2 rest, bind, Except.bind, Obj.map]; rfl
  | _, _, _, .node hf h, hw, rest => by
    have hx := WF_flatten _ _ _ _ hw hf
    have hm := flatten_map f _ _ _ _ hf
    have hr := roundtrip_aux _ _ _ _ (WF_map f _ hw) hm
    simp only [treeUnflatten, treemapAll_aux f h hx rest, bind, Except.bind, hr]; rfl
theorem treemapAll_aux {M : Type} (f : L → M) : ∀ {os : List (Obj L A)} {ls : List L}
    {ts : List (TreeDef A)}, TreeFlatAll os ls ts → WFAll os → ∀ rest : List M,
    treeUnflattenAll ts (ls.map f ++ rest) = .ok (mapAll f os, rest)
  | _, _, _, .nil, _, rest => by
    simp only [List.map_nil, List.nil_append, treeUnflattenAll, mapAll]
  | _, _, _, .cons h hs, hw, rest => by
    simp only [WFAll] at hw
    simp only [List.map_append, List.append_assoc, treeUnflattenAll]
    simp only [treemap_aux f h hw.1, bind, Except.bind, treemapAll_aux f hs hw.2, mapAll]; rfl
end

mutual
theorem map_id : ∀ o : Obj L A, o.map id = o
  | .leaf _ => by simp only [Obj.map, id]
  | .none => by simp only [Obj.map]
  | .tuple xs => by simp only [Obj.map, mapAll_id xs]
  | .dict ks vs => by simp only [Obj.map, mapAll_id vs]
  | .layer c p s info name => by simp only [Obj.map, map_id p, map_id s]
  | .serial ls info name => by simp only [Obj.map, mapAll_id ls]
  | .fn ks vs j i o name => by simp only [Obj.map, mapAll_id vs]
theorem mapAll_id : ∀ xs : List (Obj L A), mapAll id xs = xs
  | [] => rfl
  | x :: xs => by simp only [mapAll, map_id x, mapAll_id xs]
end

/-- **C43, JAX.** `tree_unflatten` of what `tree_flatten` returned is the object. -/
theorem C43_tree_roundtrip_partial (o : Obj L A) (hw : WF o) (ls : List L) (t : TreeDef A)
    (h : TreeFlat o ls t) : treeUnflatten t ls = .ok (o, []) := by
  have := treemap_aux id h hw []
  simpa [map_id] using this

/-- **C43, `tree_map`.** Replacing the leaves, as `jit`, `vmap`, `grad` and `tree_map` do, gives the same
object with its leaves replaced. -/
theorem C43_tree_map_partial {M : Type} (f : L → M) (o : Obj L A) (hw : WF o) (ls : List L)
    (t : TreeDef A) (h : TreeFlat o ls t) : treeUnflatten t (ls.map f) = .ok (o.map f, []) := by
  simpa using treemap_aux f h hw []

/-! ### Every module that contains no empty `Serial` can be flattened -/

mutual
/-- No empty `Serial`; the elements of a `Serial` are layers or modules. -/
def Flattenable : Obj L A → Prop
  | .leaf _ => True
  | .none => True
  | .tuple xs => FlattenableAll xs
  | .dict _ vs => FlattenableAll vs
  | .layer _ p s _ _ => Flattenable p ∧ Flattenable s
  | .serial ls _ _ => ls ≠ [] ∧ FlattenableAll ls ∧ ∀ l ∈ ls, clsOf l ≠ Option.none
  | .fn _ vs _ _ _ _ => FlattenableAll vs
/-- All of a list. -/
def FlattenableAll : List (Obj L A) → Prop
  | [] => True
  | x :: xs => Flattenable x ∧ FlattenableAll xs
end

mutual
theorem flatten_total : ∀ (o : Obj L A), Flattenable o → clsOf o ≠ Option.none →
    ∃ xs d c ls ts, flatten o = .ok (xs, d, c) ∧ TreeFlatAll xs ls ts
  | .leaf _, _, hc => absurd rfl hc
  | .none, _, hc => absurd rfl hc
  | .tuple _, _, hc => absurd rfl hc
  | .dict _ _, _, hc => absurd rfl hc
  | .layer c p s info name, h, _ => by
    simp only [Flattenable] at h
    obtain ⟨l1, t1, h1⟩ := treeFlat_total p h.1
    obtain ⟨l2, t2, h2⟩ := treeFlat_total s h.2
    exact ⟨[p, s], .layer info name, .layer c, _, _, by simp only [flatten],
      .cons h1 (.cons h2 .nil)⟩
  | .fn ks vs j i o name, h, _ => by
    simp only [Flattenable] at h
    obtain ⟨l1, t1, h1⟩ := treeFlatAll_total vs h
    exact ⟨vs, .fn ks j i o name, .fn, _, _, by simp only [flatten], h1⟩
  | .serial ls info name, h, _ => by
    simp only [Flattenable] at h
    obtain ⟨r, lv, ts, hr, ht, hl⟩ := flattenAll_total ls h.2.1 h.2.2
    have hne : r.isEmpty ≠ true := by
      cases r with
      | nil =>
        have : ls.length = 0 := hl.symm
        exact absurd (List.length_eq_zero_iff.1 this) h.1
      | cons => simp
    refine ⟨_, .serial (r.map (·.2.2)) (r.map (·.2.1)) name, .serial, lv, ts, ?_, ht⟩
    simp only [flatten, hr, bind, Except.bind]
    rw [if_neg hne]; rfl
theorem treeFlat_total : ∀ (o : Obj L A), Flattenable o → ∃ ls t, TreeFlat o ls t
  | .leaf v, _ => ⟨_, _, .leaf v⟩
  | .none, _ => ⟨_, _, .none⟩
  | .tuple xs, h => by
    simp only [Flattenable] at h
    obtain ⟨l, t, h⟩ := treeFlatAll_total xs h
    exact ⟨_, _, .tuple h⟩
  | .dict ks xs, h => by
    simp only [Flattenable] at h
    obtain ⟨l, t, h⟩ := treeFlatAll_total xs h
    exact ⟨_, _, .dict h⟩
  | .layer c p s info name, h => by
    simp only [Flattenable] at h
    obtain ⟨l1, t1, h1⟩ := treeFlat_total p h.1
    obtain ⟨l2, t2, h2⟩ := treeFlat_total s h.2
    exact ⟨_, _, .node (by simp only [flatten]; rfl) (.cons h1 (.cons h2 .nil))⟩
  | .fn ks vs j i o name, h => by
    simp only [Flattenable] at h
    obtain ⟨l1, t1, h1⟩ := treeFlatAll_total vs h
    exact ⟨_, _, .node (by simp only [flatten]; rfl) h1⟩
  | .serial ls info name, h => by
    simp only [Flattenable] at h
    obtain ⟨r, lv, ts, hr, ht, hl⟩ := flattenAll_total ls h.2.1 h.2.2
    have hne : r.isEmpty ≠ true := by
      cases r with
      | nil =>
        have : ls.length = 0 := hl.symm
        exact absurd (List.length_eq_zero_iff.1 this) h.1
      | cons => simp
    refine ⟨_, .node .serial (.serial (r.map (·.2.2)) (r.map (·.2.1)) name) ts, .node ?_ ht⟩
    simp only [flatten, hr, bind, Except.bind]
    rw [if_neg hne]; rfl
theorem flattenAll_total : ∀ (ls : List (Obj L A)), FlattenableAll ls →
    (∀ l ∈ ls, clsOf l ≠ Option.none) → ∃ r lv ts, flattenAll ls = .ok r ∧
    TreeFlatAll (r.map fun x => Obj.tuple x.1) lv ts ∧ r.length = ls.length
  | [], _, _ => ⟨[], [], [], by simp only [flattenAll], .nil, rfl⟩
  | x :: xs, h, hc => by
    simp only [FlattenableAll] at h
    obtain ⟨x1, d, c, l1, t1, h1, h2⟩ := flatten_total x h.1 (hc x (by simp))
    obtain ⟨r, lv, ts, h3, h4, h5⟩ := flattenAll_total xs h.2
      fun l hl => hc l (List.mem_cons_of_mem _ hl)
    refine ⟨(x1, d, c) :: r, l1 ++ lv, .tuple t1 :: ts, ?_, .cons (.tuple h2) h4, by simp [h5]⟩
    simp only [flattenAll, h1, h3, bind, Except.bind]; rfl
theorem treeFlatAll_total : ∀ (xs : List (Obj L A)), FlattenableAll xs →
    ∃ ls ts, TreeFlatAll xs ls ts
  | [], _ => ⟨_, _, .nil⟩
  | x :: xs, h => by
    simp only [FlattenableAll] at h
    obtain ⟨l1, t1, h1⟩ := treeFlat_total x h.1
    obtain ⟨l2, t2, h2⟩ := treeFlatAll_total xs h.2
    exact ⟨_, _, .cons h1 h2⟩
end

/-- **C43, totality.** Every value without an empty `Serial` can be flattened. -/
theorem C43_tree_flatten_total (o : Obj L A) (h : Flattenable o) : ∃ ls t, TreeFlat o ls t :=
  treeFlat_total o h

/-- **Not so** for the empty `Serial`. -/
theorem C43_empty_serial (name : Option String) (info : Option A) :
    flatten (.serial [] info name : Obj L A) = .error .unpack := by
  simp only [flatten, flattenAll, bind, Except.bind]; rfl

/-- **Not so** for a `Serial` that was given an `info` by `replace`: it is lost. -/
theorem C43_serial_info_lost (l : Obj L A) (a : A) (xs : List (Obj L A)) (d : Data A) (c : Cls)
    (h : flatten (.serial [l] (some a) Option.none) = .ok (xs, d, c)) :
    unflatten c d xs ≠ .ok (.serial [l] (some a) Option.none) := by
  simp only [flatten, flattenAll, bind, Except.bind, pure, Except.pure] at h
  split at h
  · cases h
  rename_i r hr
  split at hr
  · cases hr
  · cases hr
    split at h
    · cases h
    cases h
    simp only [unflatten, bind, Except.bind]
    split
    · intro h; cases h
    · intro h; injection h with h; injection h with _ h; cases h

/-! ### Equality of tree definitions -/

mutual
/-- `==` on the data: jaxprs are wrapped in `_EqJaxpr`, whose `__eq__` always answers true
(`function.py:119-133`). -/
def Data.eqv [DecidableEq A] : Data A → Data A → Bool
  | .layer i n, .layer i' n' => i = i' && n = n'
  | .serial cs ds n, .serial cs' ds' n' => cs = cs' && eqvAll ds ds' && n = n'
  | .fn ks _ i o n, .fn ks' _ i' o' n' => ks = ks' && i = i' && o = o' && n = n'
  | _, _ => false
/-- On tuples of data (`_EqJaxpr.__eq__`, function.py:139-153). -/
def eqvAll [DecidableEq A] : List (Data A) → List (Data A) → Bool
  | [], [] => true
  | d :: ds, d' :: ds' => d.eqv d' && eqvAll ds ds'
  | _, _ => false
end

mutual
/-- `==` on tree definitions, which keys the cache of `jit` and is checked by `cond`, `scan` and
`while_loop` (`_EqJaxpr.__eq__`, function.py:139-153). -/
def TreeDef.eqv [DecidableEq A] : TreeDef A → TreeDef A → Bool
  | .leaf, .leaf => true
  | .none, .none => true
  | .tuple ts, .tuple ts' => eqvTs ts ts'
  | .dict ks ts, .dict ks' ts' => ks = ks' && eqvTs ts ts'
  | .node c d ts, .node c' d' ts' => c = c' && d.eqv d' && eqvTs ts ts'
  | _, _ => false
/-- On lists (JAX). -/
def eqvTs [DecidableEq A] : List (TreeDef A) → List (TreeDef A) → Bool
  | [], [] => true
  | t :: ts, t' :: ts' => t.eqv t' && eqvTs ts ts'
  | _, _ => false
end

/-- **C43 fails for cached transformations**: two function modules with the same variables and different
programs have the same leaves and equal tree definitions, so `jit` takes one for the other. -/
theorem C43_eqJaxpr_counterexample [DecidableEq A] (a b t : A) (hab : a ≠ b) (v : L) :
    ∃ (m m' : Obj L A) (ls : List L) (d d' : TreeDef A), WF m ∧ WF m' ∧ TreeFlat m ls d ∧
      TreeFlat m' ls d' ∧ d.eqv d' = true ∧ m ≠ m' := by
  refine ⟨.fn ["w"] [.leaf v] a t t .none, .fn ["w"] [.leaf v] b t t .none, _, _, _, ?_, ?_,
    .node (by simp only [flatten]; rfl) (.cons (.leaf v) .nil),
    .node (by simp only [flatten]; rfl) (.cons (.leaf v) .nil), ?_, ?_⟩
  · simp [WF, WFAll]
  · simp [WF, WFAll]
  · simp [TreeDef.eqv, Data.eqv, eqvTs]
  · intro h; injection h with _ _ h; exact hab h

/-! ### Serialisation -/

/-- `to_tuple`, `serialize.py:26-27`. -/
def toTuple (o : Obj L A) : Except Err (Cls × List (Obj L A) × Data A) := do
  let r ← flatten o
  pure (r.2.2, r.1, r.2.1)

/-- `from_tuple`, `serialize.py:30-32`. -/
def fromTuple (t : Cls × List (Obj L A) × Data A) : Except Err (Obj L A) := unflatten t.1 t.2.2 t.2.1

/-- **C43, serialisation.** For any encoding that round-trips (`pickle`), `deserialize(serialize(o))`
is `o`. -/
theorem C43_serialize_partial {B : Type} (dumps : Cls × List (Obj L A) × Data A → B)
    (loads : B → Cls × List (Obj L A) × Data A) (hp : ∀ t, loads (dumps t) = t) (o : Obj L A)
    (hw : WF o) (t : Cls × List (Obj L A) × Data A) (h : toTuple o = .ok t) :
    fromTuple (loads (dumps t)) = .ok o := by
  rw [hp]
  simp only [toTuple, bind, Except.bind] at h
  split at h
  · cases h
  rename_i r hr
  cases h
  exact roundtrip_aux o r.1 r.2.1 r.2.2 hw hr

/-- The hypotheses can be met: a `Serial` of a `Dense` layer and a nested `Serial`. -/
example : ∃ ls t, TreeFlat (.serial [.layer "Dense" (.tuple [.leaf 1, .leaf 2]) (.tuple []) () none,
      .serial [.layer "Relu" (.tuple []) (.tuple []) () none] none (some "s")] none none : Obj Nat Unit)
    ls t ∧ WF (.serial [.layer "Dense" (.tuple [.leaf 1, .leaf 2]) (.tuple []) () none,
      .serial [.layer "Relu" (.tuple []) (.tuple []) () none] none (some "s")] none none : Obj Nat Unit) := by
  have : Flattenable (.serial [.layer "Dense" (.tuple [.leaf 1, .leaf 2]) (.tuple []) () none,
      .serial [.layer "Relu" (.tuple []) (.tuple []) () none] none (some "s")] none none
      : Obj Nat Unit) := by
    simp [Flattenable, FlattenableAll, clsOf]
  obtain ⟨ls, t, h⟩ := C43_tree_flatten_total _ this
  exact ⟨ls, t, h, by simp [WF, WFAll]⟩

end Verif.NN.Tree
