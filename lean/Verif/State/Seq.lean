/-
Model of oryx/core/state/registrations.py: `init`, `call_and_update` and `spec` of tuples and lists of
objects.
-/
namespace Verif.State.Seq

/-- Python values: arrays (or specs), tuples and lists (arguments and results of registrations.py:65-143). -/
inductive PyVal (V : Type) where
  | arr (v : V)
  | tup (l : List (PyVal V))
  | lst (l : List (PyVal V))

mutual
/-- `tree_util.tree_map(f, ·)` (registrations.py:115-117). -/
def PyVal.map {V W : Type} (f : V → W) : PyVal V → PyVal W
  | .arr v => .arr (f v)
  | .tup l => .tup (mapAll f l)
  | .lst l => .lst (mapAll f l)
/-- Models JAX. -/
def mapAll {V W : Type} (f : V → W) : List (PyVal V) → List (PyVal W)
  | [] => []
  | x :: xs => x.map f :: mapAll f xs
end

/-- An object given to the single-dispatch functions: some module (or template), a tuple or a list.
(the dispatch of registrations.py:65-143). -/
inductive Obj (σ : Type) where
  | leaf (s : σ)
  | tup (l : List (Obj σ))
  | lst (l : List (Obj σ))

/-- registrations.py:128-129: the arguments of the next component: a tuple is spread, everything else is one
argument. -/
def asArgs {V : Type} : PyVal V → List (PyVal V)
  | .tup l => l
  | v => [v]

mutual
/-- `api.call_and_update` (registrations.py:83-89, 123-132).  `step` is `call_and_update` of other objects.
`zip(*[])` cannot be unpacked into two values, so an empty tuple raises (`emptyTuple`). -/
def callAndUpdate {V σ ε : Type} (step : σ → List (PyVal V) → Except ε (PyVal V × σ)) (emptyTuple : ε) :
    Obj σ → List (PyVal V) → Except ε (PyVal V × Obj σ)
  | .leaf s, args => (step s args).map (fun r => (r.1, .leaf r.2))
  | .tup l, args =>
    match callAll step emptyTuple l args with
    | .error e => .error e
    | .ok [] => .error emptyTuple
    | .ok (r :: rs) => .ok (.tup ((r :: rs).map (·.1)), .tup ((r :: rs).map (·.2)))
  | .lst l, args =>
    (callChain step emptyTuple l (.tup args)).map (fun r => (r.1, .lst r.2))
/-- The list comprehension of registrations.py:86. -/
def callAll {V σ ε : Type} (step : σ → List (PyVal V) → Except ε (PyVal V × σ)) (emptyTuple : ε) :
    List (Obj σ) → List (PyVal V) → Except ε (List (PyVal V × Obj σ))
  | [], _ => .ok []
  | o :: os, args =>
    match callAndUpdate step emptyTuple o args with
    | .error e => .error e
    | .ok r =>
      match callAll step emptyTuple os args with
      | .error e => .error e
      | .ok rs => .ok (r :: rs)
/-- The loop of registrations.py:127-132; `args` is the Python variable `args`. -/
def callChain {V σ ε : Type} (step : σ → List (PyVal V) → Except ε (PyVal V × σ)) (emptyTuple : ε) :
    List (Obj σ) → PyVal V → Except ε (PyVal V × List (Obj σ))
  | [], args => .ok (args, [])
  | o :: os, args =>
    match callAndUpdate step emptyTuple o (asArgs args) with
    | .error e => .error e
    | .ok r =>
      match callChain step emptyTuple os r.1 with
      | .error e => .error e
      | .ok rs => .ok (rs.1, r.2 :: rs.2)
end

/-- `*args` for the result of a spec: registrations.py:115-116 and 139-140 wrap only an `ArraySpec`; a list is
spread like a tuple. -/
def specArgs {S : Type} : PyVal S → List (PyVal S)
  | .arr s => [.arr s]
  | .tup l => l
  | .lst l => l

mutual
/-- `api.spec(obj)(*specs)` (registrations.py:92-98, 135-143). -/
def spec {S τ ε : Type} (leafSpec : τ → List (PyVal S) → Except ε (PyVal S)) (emptyTuple : ε) :
    Obj τ → List (PyVal S) → Except ε (PyVal S)
  | .leaf t, specs => leafSpec t specs
  | .tup l, specs =>
    match specAll leafSpec emptyTuple l specs with
    | .error e => .error e
    | .ok [] => .error emptyTuple                  -- registrations.py:94
    | .ok (r :: rs) => .ok (.tup (r :: rs))
  | .lst l, specs => specChain leafSpec emptyTuple l (.tup specs)
/-- Models registrations.py:92-98. -/
def specAll {S τ ε : Type} (leafSpec : τ → List (PyVal S) → Except ε (PyVal S)) (emptyTuple : ε) :
    List (Obj τ) → List (PyVal S) → Except ε (List (PyVal S))
  | [], _ => .ok []
  | o :: os, specs =>
    match spec leafSpec emptyTuple o specs with
    | .error e => .error e
    | .ok r =>
      match specAll leafSpec emptyTuple os specs with
      | .error e => .error e
      | .ok rs => .ok (r :: rs)
/-- Models registrations.py:135-143. -/
def specChain {S τ ε : Type} (leafSpec : τ → List (PyVal S) → Except ε (PyVal S)) (emptyTuple : ε) :
    List (Obj τ) → PyVal S → Except ε (PyVal S)
  | [], specs => .ok specs
  | o :: os, specs =>
    match spec leafSpec emptyTuple o (specArgs specs) with
    | .error e => .error e
    | .ok r => specChain leafSpec emptyTuple os r
end

/-- What `init` needs to know about the leaves: initialisation, specs, arrays of ones and key splitting.
(registrations.py:65-120). -/
structure Env (V S K τ σ ε : Type) where
  leafInit : τ → Option String → Option K → List (PyVal V) → Except ε σ
  leafSpec : τ → List (PyVal S) → Except ε (PyVal S)
  specOf : V → S                      -- shape and dtype
  ones : S → V                        -- `jnp.ones(x.shape, x.dtype)`
  split : K → Nat → List K            -- `random.split(key, n)`
  emptyTuple : ε

/-- registrations.py:75-76, 112: `f'{name}_{i}'` or `None`. -/
def elemName (name : Option String) (i : Nat) : Option String := name.map (fun n => n ++ "_" ++ toString i)

/-- registrations.py:71-74, 106-109. -/
def elemKey {V S K τ σ ε : Type} (E : Env V S K τ σ ε) (key : Option K) (n i : Nat) : Option K :=
  key.bind (fun k => (E.split k n)[i]?)

mutual
/-- `api.init(obj, name=name)(init_key, *args)` (registrations.py:65-80, 101-120). -/
def init {V S K τ σ ε : Type} (E : Env V S K τ σ ε) :
    Obj τ → Option String → Option K → List (PyVal V) → Except ε (Obj σ)
  | .leaf t, name, key, args => (E.leafInit t name key args).map .leaf
  | .tup l, name, key, args =>
    if l.isEmpty then .error E.emptyTuple          -- registrations.py:68-69
    else (initAll E l name key l.length 0 args).map .tup
  | .lst l, name, key, args =>
    (initChain E l name key l.length 0 (.tup (mapAll (fun v => E.ones (E.specOf v)) args))).map .lst
/-- The generator of registrations.py:77-78. -/
def initAll {V S K τ σ ε : Type} (E : Env V S K τ σ ε) :
    List (Obj τ) → Option String → Option K → Nat → Nat → List (PyVal V) → Except ε (List (Obj σ))
  | [], _, _, _, _, _ => .ok []
  | o :: os, name, key, n, i, args =>
    match init E o (elemName name i) (elemKey E key n i) args with
    | .error e => .error e
    | .ok r =>
      match initAll E os name key n (i + 1) args with
      | .error e => .error e
      | .ok rs => .ok (r :: rs)
/-- The loop of registrations.py:111-118; `args` is the Python variable `args` (spread with `*args`). -/
def initChain {V S K τ σ ε : Type} (E : Env V S K τ σ ε) :
    List (Obj τ) → Option String → Option K → Nat → Nat → PyVal V → Except ε (List (Obj σ))
  | [], _, _, _, _, _ => .ok []
  | o :: os, name, key, n, i, args =>
    match init E o (elemName name i) (elemKey E key n i) (specArgs args) with
    | .error e => .error e
    | .ok r =>
      match spec E.leafSpec E.emptyTuple o (mapAll E.specOf (specArgs args)) with
      | .error e => .error e
      | .ok s =>
        match initChain E os name key n (i + 1) (s.map E.ones) with
        | .error e => .error e
        | .ok rs => .ok (r :: rs)
end

end Verif.State.Seq
