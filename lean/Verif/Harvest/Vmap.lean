/-
Model of `jax.vmap` of a program with control flow whose sows are then harvested: `_sow_batch_rule`
(oryx/core/interpreters/harvest.py:222-228) and JAX's batching rules of the control flow primitives, which decide what the
rules of harvest.py:788-1167 see.
-/
import Verif.Harvest.Model

namespace Verif.Harvest

/-- For every `cond` and `while` of the program: whether its predicate is batched, i.e. computed from mapped inputs (JAX's
batching rules distinguish the two cases by following the data flow; models JAX, not oryx). -/
def Flags {V : Type} : {A B : Type} → Prog V A B → Type
  | _, _, .pure _ => Unit
  | _, _, .seq p q => Flags p × Flags q
  | _, _, .sow _ _ _ _ _ _ => Unit
  | _, _, .nest _ _ body _ => Flags body
  | _, _, .inline _ body _ => Flags body
  | _, _, .call _ _ body _ => Flags body
  | _, _, .cond _ _ _ br _ => Bool × (∀ i, Flags (br i))
  | _, _, .scan _ _ body _ => Flags body
  | _, _, .whileL _ test body _ => Bool × Flags test × Flags body

/-- The results of all lanes; the batched step fails when a lane does (models JAX, which has no failures at run time;
harvest.py:222-228 sees the stacked values). -/
def allLanes {B : Type} : {n : Nat} → (Fin n → Except RErr B) → Except RErr (Fin n → B)
  | 0, _ => .ok (fun i => i.elim0)
  | _ + 1, f => do
    let b ← f 0
    let bs ← allLanes (fun i => f i.succ)
    return fun i => Fin.cases b bs i

/-- Some lane satisfies the condition (models JAX's `reduce_or` over the batch axis of a predicate). -/
def anyLane : {n : Nat} → (Fin n → Bool) → Bool
  | 0, _ => false
  | _ + 1, t => t 0 || anyLane (fun i => t i.succ)

/-- All lanes satisfy the condition (not in JAX: checks of this model). -/
def everyLane : {n : Nat} → (Fin n → Bool) → Bool
  | 0, _ => true
  | _ + 1, t => t 0 && everyLane (fun i => t i.succ)

mutual
/-- Lane `i` of a batched value (the batch axis of harvest.py:222-228; which axis it is, is C66 for straight-line code). -/
def Val.lane {V : Type} {n : Nat} (i : Fin n) : Val (Fin n → V) → Val V
  | .leaf f => .leaf (f i)
  | .dict d => .dict (fun k => laneO i (d k))
  | .stack vs => .stack (laneL i vs)
  | .zeros => .zeros
/-- Lane `i` of an optional value (models JAX). -/
def laneO {V : Type} {n : Nat} (i : Fin n) : Option (Val (Fin n → V)) → Option (Val V)
  | none => none
  | some v => some (v.lane i)
/-- Lane `i` of a list of values (models JAX). -/
def laneL {V : Type} {n : Nat} (i : Fin n) : List (Val (Fin n → V)) → List (Val V)
  | [] => []
  | v :: vs => v.lane i :: laneL i vs
end

/-- One after the other, all the branches of a `cond` with a batched predicate (models JAX's batching rule of `cond_p`, which
evaluates the branches in the same trace and selects; harvest.py:1013-1054 never sees that `cond`). -/
def allBranches {V X Y : Type} : {m : Nat} → (Fin m → Prog V X Y) → Prog V X (Fin m → Y)
  | 0, _ => .pure (fun _ => .ok (fun i => i.elim0))
  | _ + 1, br => .seq (.inline id (br 0) (fun x y => (x, y)))
      (.inline (fun xy => xy.1) (allBranches (fun i => br i.succ)) (fun xy ys i => Fin.cases xy.2 ys i))

/-- The elements of all lanes at each position of the scanned operands (models JAX; the lengths of the lanes agree). -/
def transposed {X : Type} {n : Nat} (xs : Fin (n + 1) → List X) : List (Fin (n + 1) → X) :=
  (xs 0).mapIdx (fun t x0 i => ((xs i)[t]?).getD x0)

/-- `vmap(f)` over `n + 1` lanes.
* A sow of a batched value is a sow of the batched value (harvest.py:222-228).
* A `cond` with an unbatched predicate stays a `cond`; with a batched one all branches are executed and each lane selects
  its result.
* A `while` with an unbatched predicate stays the same; with a batched one it runs until all lanes are done, and lanes that
  are done keep their carry: the body is executed on it all the same.
* `scan`, calls and nested scopes are mapped inside.
Simplifications: sown values are single arrays; predicates of `sow_cond` are not batched (only programs without active
`sow_cond` are considered); unbatched predicates agree on all lanes and scanned operands have the same lengths, else the
model fails with `shape`. -/
def vm {V : Type} (n : Nat) : {A B : Type} → (p : Prog V A B) → Flags p →
    Prog (Fin (n + 1) → V) (Fin (n + 1) → A) (Fin (n + 1) → B)
  | _, _, .pure f, _ => .pure (fun a => allLanes (fun i => f (a i)))
  | _, _, .seq p q, fl => .seq (vm n p fl.1) (vm n q fl.2)
  | _, _, .sow tag name mode pre _ post, _ =>
    .seq (.pure (fun a => (allLanes (fun i => match pre (a i) with | .leaf v => .ok v | _ => .error .shape)).map
        (fun vs => (a, vs))))
      (.sow tag name mode (fun avs => .leaf avs.2) (fun _ => true) (fun avs w i => post (avs.1 i) (w.lane i)))
  | _, _, .nest scope pre body post, fl =>
    .nest scope (fun a i => pre (a i)) (vm n body fl) (fun a y i => post (a i) (y i))
  | _, _, .inline pre body post, fl => .inline (fun a i => pre (a i)) (vm n body fl) (fun a y i => post (a i) (y i))
  | _, _, .call kind pre body post, fl =>
    .call kind (fun a i => pre (a i)) (vm n body fl) (fun a y i => post (a i) (y i))
  | _, _, .cond j sel pre br post, fl =>
    if fl.1 then
      .inline (fun a i => pre (a i)) (allBranches (fun k => vm n (br k) (fl.2 k)))
        (fun a ys i => post (a i) (ys (sel (a i)) i))
    else
      .seq (.pure (fun a => if everyLane (fun i => sel (a i) == sel (a 0)) then .ok a else .error .shape))
        (.cond j (fun a => sel (a 0)) (fun a i => pre (a i)) (fun k => vm n (br k) (fl.2 k))
          (fun a y i => post (a i) (y i)))
  | _, _, .scan rev pre body post, fl =>
    .seq (.pure (fun a => if everyLane (fun i => (pre (a i)).2.length == (pre (a 0)).2.length) then .ok a else .error .shape))
      (.scan rev (fun a => (fun i => (pre (a i)).1, transposed (fun i => (pre (a i)).2)))
        (.inline (fun kx i => (kx.1 i, kx.2 i)) (vm n body fl) (fun _ r => (fun i => (r i).1, fun i => (r i).2)))
        (fun a k ys i => post (a i) (k i) (ys.map (fun y => y i))))
  | _, _, .whileL pre test body post, fl =>
    if fl.1 then
      .whileL (fun a i => pre (a i))
        (.seq (vm n test fl.2.1) (.pure (fun t => .ok (anyLane t))))
        (.seq (.inline id (vm n test fl.2.1) (fun k t => (k, t)))
          (.inline (fun kt => kt.1) (vm n body fl.2.2) (fun kt k i => if kt.2 i then k i else kt.1 i)))
        (fun a k i => post (a i) (k i))
    else
      .whileL (fun a i => pre (a i))
        (.seq (vm n test fl.2.1) (.pure (fun t => if everyLane (fun i => t i == t 0) then .ok (t 0) else .error .shape)))
        (vm n body fl.2.2) (fun a k i => post (a i) (k i))

end Verif.Harvest
