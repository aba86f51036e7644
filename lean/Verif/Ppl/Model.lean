/-
Model of oryx/core/ppl/transformations.py: the probabilistic program transformations built on harvest.
A probabilistic program is a `Harvest.Prog` that sows its named random variables with the tag
"random_variable".
-/
import Verif.Harvest.Model

namespace Verif.Ppl

open Verif.Harvest

/-- transformations.py:254 `RANDOM_VARIABLE`. -/
def rvTag : String := "random_variable"

/-- The settings with which the ppl transformations call harvest (transformations.py:392, 402, 465, 547:
only the tag is passed). -/
def rvS : Settings := ⟨rvTag, [], none, false⟩

/-- Errors of the ppl transformations (transformations.py:278-283, 509, 548). -/
inductive PErr
  | harvest (e : Err)         -- raised by reap or plant
  | noName                    -- transformations.py:278-280
  | hasPlate                  -- transformations.py:281-283
  | zipLength                 -- `zip(.., strict=True)`, transformations.py:509
  | keyError (n : String)     -- `latents[name]`, transformations.py:548
  deriving DecidableEq, Repr

/-- Errors of harvest are passed on (transformations.py:390-467). -/
def liftErr {α : Type 1} : Except Err α → Except PErr α
  | .ok a => .ok a
  | .error e => .error (.harvest e)

/-- `random_variable(value, name, plate)` (transformations.py:260-284): a strict sow.  `enc` is the tagged
value, `dec` puts the result of the sow back in the environment. -/
def rvValue {V A C : Type} (name plate : Option String) (enc : A → Val V) (dec : A → Val V → C) :
    Except PErr (Prog V A C) :=
  match name with
  | none => .error .noName
  | some n =>
    match plate with
    | some _ => .error .hasPlate
    | none => .ok (.sow rvTag n .strict enc (fun _ => true) dec)

/-- `random_variable(f, name)` for a function (transformations.py:339-364): the nested call, whose output is
sown under the name of the scope.  Simplification: `plate` is not modelled. -/
def rvFun {V A B : Type} (name : Option String) (f : Prog V A B) (enc : B → Val V) (dec : B → Val V → B) :
    Prog V A B :=
  match name with
  | none => f
  | some n =>
    .seq (.nest n id f (fun _ b => b)) (.sow rvTag n .strict enc (fun _ => true) dec)

/-- `trace` (transformations.py:390-392). -/
def trace {V A B : Type} (f : Prog V A B) : Except Err (Prog V A (B × Dict V)) := callAndReap rvS f

/-- `joint_sample` (transformations.py:400-402). -/
def jointSample {V A B : Type} (f : Prog V A B) : Except Err (Prog V A (Dict V)) := reap rvS f

/-- `block` (transformations.py:410-419). -/
def block {V A B : Type} (f : Prog V A B) (names : List String) : Except Err (Prog V A B) :=
  plant { rvS with blocklist := names } f (fun _ => none)

/-- `intervene` (transformations.py:422-467). -/
def intervene {V A B : Type} (f : Prog V A B) (obs : Dict V) : Except Err (Prog V A B) :=
  plant rvS f obs

/-- `dict(pairs)`: later pairs win (transformations.py:509). -/
def dictOf {V : Type} (l : List (String × Val V)) : Dict V :=
  l.foldl (fun d e => fun k => if k = e.1 then some e.2 else d k) (fun _ => none)

/-- The arguments of a conditioned program are split into the program's own arguments and the conditions
(transformations.py:506-511); `args[:-n]` and `args[-n:]` are clamped when there are fewer than `n`. -/
def condArgs {V : Type} (names : List String) (args : List (Val V)) :
    Except PErr (List (Val V) × Dict V) :=
  if names.length > 0 then
    let own := args.take (args.length - names.length)
    let vals := args.drop (args.length - names.length)
    if vals.length = names.length then .ok (own, dictOf (names.zip vals)) else .error .zipLength
  else .ok (args, fun _ => none)

/-- `conditional(f, names)(*args)` (transformations.py:470-515): the program that is run and the arguments it
is run with.  (`names` given as one string is the one-element list.) -/
def conditional {V B : Type} (f : Prog V (List (Val V)) B) (names : List String) (args : List (Val V)) :
    Except PErr (Prog V (List (Val V)) B × List (Val V)) :=
  match condArgs names args with
  | .error e => .error e
  | .ok (own, P) =>
    match intervene f P with
    | .error e => .error (.harvest e)
    | .ok g => .ok (g, own)

/-- The strict sows of the remaining latents (transformations.py:549-553); the results of the sows are only
used in `tie_in`. -/
def resowAll {V : Type} : List String → Prog V (Dict V) (Dict V)
  | [] => .pure .ok
  | n :: ns =>
    .seq (.sow rvTag n .strict (fun d => (d n).getD .zeros) (fun _ => true) (fun d _ => d)) (resowAll ns)

/-- `graph_replace(f, input_names, output_names)(*args)` (transformations.py:518-558), for a list of output
names.  `tie_in(latents, outputs)` returns `outputs`.  The keys of the reaped dictionary are those of the
metadata. -/
def graphReplace {V B : Type} (f : Prog V (List (Val V)) B) (ins outs : List String)
    (args : List (Val V)) : Except PErr (Prog V (List (Val V)) (List (Val V)) × List (Val V)) :=
  match conditional f ins args with
  | .error e => .error e
  | .ok (g, own) =>
    match metaOf rvS g [], reap rvS g with
    | .ok m, .ok r =>
      match outs.find? (fun n => (m.get n).isNone) with
      | some n => .error (.keyError n)
      | none => .ok (.seq r (.seq (resowAll ((m.map (·.1)).filter (fun n => !outs.contains n)))
          (.pure (fun d => .ok (outs.map (fun n => (d n).getD .zeros))))), own)
    | .error e, _ => .error (.harvest e)
    | _, .error e => .error (.harvest e)

end Verif.Ppl
