/-
Model of oryx/core/interpreters/propagate.py: the propagation of cells through the graph of a jaxpr.
-/
namespace Verif.Propagate

/-- Variables of a jaxpr: a literal (with its value), a variable or a `DropVar` (propagate.py:162-175). -/
inductive Atom (L : Type) where
  | lit (v : L)
  | var (x : Nat)
  | drop (x : Nat)

/-- The `Cell` interface (propagate.py:61-113): `<`, `join`, `unknown` (per variable, it depends on the
abstract value) and `new`. -/
structure CellOps (C L : Type) where
  lt : C → C → Bool
  join : C → C → C
  unknown : Nat → C
  new : L → C

/-- One equation (propagate.py:116-150) together with the rule that applies to it (propagate.py:297-325): the
rule of the primitive, or the recursive propagation of a called jaxpr (`call_rule`). -/
structure Eqn (C L S : Type) where
  ins : List (Atom L)
  outs : List (Atom L)
  rule : List C → List C → List C × List C × S

/-- A jaxpr.  Equations are identified by their position (the arguments of propagate.py:247-255). -/
structure Jaxpr (C L S : Type) where
  constvars : List (Atom L)
  invars : List (Atom L)
  outvars : List (Atom L)
  eqns : List (Eqn C L S)

/-- `Environment.env` with the default of `read` (propagate.py:162-166). -/
abbrev Env (C : Type) := Nat → C

variable {C L S : Type} (O : CellOps C L)

/-- `Environment.read` (propagate.py:162-166). -/
def read (env : Env C) : Atom L → C
  | .lit v => O.new v
  | .var x => env x
  | .drop x => env x

/-- `Environment.write` (propagate.py:168-175): the new environment and the returned cell. -/
def write (env : Env C) (a : Atom L) (c : C) : Env C × C :=
  match a with
  | .lit _ => (env, c)
  | .drop x => (env, env x)
  | .var x => (fun y => if y = x then O.join (env x) c else env y, O.join (env x) c)

/-- `safe_map(env.write, atoms, cells)`; the lists have the same length (propagate.py:274-283). -/
def writeAll (env : Env C) : List (Atom L) → List C → Env C × List C
  | a :: as, c :: cs =>
    let r := write O env a c
    let s := writeAll r.1 as cs
    (s.1, r.2 :: s.2)
  | _, _ => (env, [])

/-- The variable of an atom in the graph; literals are not nodes (propagate.py:201-202, 206-207). -/
def Atom.node : Atom L → Option Nat
  | .lit _ => none
  | .var x => some x
  | .drop x => some x

/-- Equation number `e` is a neighbour of variable `x` (propagate.py:196-210). -/
def Nbr (J : Jaxpr C L S) (x e : Nat) : Prop :=
  ∃ q, J.eqns[e]? = some q ∧ some x ∈ (q.ins ++ q.outs).map Atom.node

/-- State of the loop (the variables of the loop, propagate.py:286-332). -/
structure St (C S : Type) where
  env : Env C
  queue : List Nat
  states : Nat → Option S

/-- What processing equation `q` writes: the environment and the cells returned by the writes
(propagate.py:294-329). -/
def exec (env : Env C) (q : Eqn C L S) : Env C × List C × List C × S :=
  let r := q.rule (q.ins.map (read O env)) (q.outs.map (read O env))
  let w1 := writeAll O env q.ins r.1
  let w2 := writeAll O w1.1 q.outs r.2.1
  (w2.1, w1.2, w2.2, r.2.2)

/-- The variables for which `old_cell < new_cell` (propagate.py:216-223). -/
def progressed (atoms : List (Atom L)) (old new : List C) : List Nat :=
  ((atoms.zip (old.zip new)).filter (fun p => O.lt p.2.1 p.2.2)).filterMap (fun p => p.1.node)

/-- The queue after the loop of propagate.py:220-228: for each progressed variable the neighbours that are
neither in the queue nor the current equation are put in front, in any order (they come from a Python set). -/
inductive Pushes (J : Jaxpr C L S) (cur : Nat) : List Nat → List Nat → List Nat → Prop
  | nil (q) : Pushes J cur [] q q
  | cons (x xs q ns q') (hnd : ns.Nodup) (hns : ∀ e, e ∈ ns ↔ Nbr J x e ∧ e ∉ q ∧ e ≠ cur)
      (ht : Pushes J cur xs (ns ++ q) q') : Pushes J cur (x :: xs) q q'

/-- One iteration of the loop (propagate.py:291-332). -/
inductive Step (J : Jaxpr C L S) : St C S → St C S → Prop
  | mk (s : St C S) (e : Nat) (rest : List Nat) (q : Eqn C L S) (q' : List Nat)
      (hq : s.queue = e :: rest) (he : J.eqns[e]? = some q)
      (hp : Pushes J e (progressed O (q.ins ++ q.outs)
        (q.ins.map (read O s.env) ++ q.outs.map (read O s.env))
        ((exec O s.env q).2.1 ++ (exec O s.env q).2.2.1)) rest q') :
      Step J s ⟨(exec O s.env q).1, q', fun i => if i = e then some (exec O s.env q).2.2.2 else s.states i⟩

/-- The initial environment (propagate.py:273-286): the cells of the constants, inputs and outputs are
written, then every variable is joined with `unknown`. -/
def initEnv (J : Jaxpr C L S) (consts ins outs : List C) : Env C :=
  let e0 : Env C := O.unknown
  let e1 := (writeAll O e0 J.constvars consts).1
  let e2 := (writeAll O e1 J.invars ins).1
  let e3 := (writeAll O e2 J.outvars outs).1
  let all := J.eqns.flatMap (fun q => q.ins ++ q.outs)
  (writeAll O e3 all (all.map (fun a => match a.node with | some x => O.unknown x | none => read O e3 a))).1

/-- The initial queue: the equations next to an output, input or constant, in any order
(propagate.py:288-290). -/
def InitQueue (J : Jaxpr C L S) (q : List Nat) : Prop :=
  q.Nodup ∧ ∀ e, e ∈ q ↔ ∃ x, some x ∈ (J.outvars ++ J.invars ++ J.constvars).map Atom.node ∧ Nbr J x e

/-- The initial state (propagate.py:273-290). -/
def Init (J : Jaxpr C L S) (consts ins outs : List C) (s : St C S) : Prop :=
  s.env = initEnv O J consts ins outs ∧ InitQueue J s.queue ∧ ∀ i, s.states i = none

/-- A number of iterations (propagate.py:291-332). -/
inductive Steps (J : Jaxpr C L S) : St C S → St C S → Prop
  | refl (s) : Steps J s s
  | tail (s t u) (h : Steps J s t) (hs : Step O J t u) : Steps J s u

/-- The final reduction over the equations in order (propagate.py:333-336). -/
def reduceStates {R : Type} (reducer : Env C → Eqn C L S → R → Option S → R) (J : Jaxpr C L S) (s : St C S)
    (initial : R) : R :=
  (J.eqns.zipIdx).foldl (fun r p => reducer s.env p.1 r (s.states p.2)) initial

end Verif.Propagate
