/-
Model of oryx/core/interpreters/harvest.py: `sow`, `sow_cond`, `nest`, `reap`, `call_and_reap`,
`plant`, `harvest`.

A traced JAX function is modelled by a program `Prog V A B` from inputs `A` to outputs `B`.  The sow
structure of a program is static (as it is for a jaxpr), pure primitives are arbitrary Lean functions
which may fail at run time.  `reap` and `plant` are source-to-source transformations, as in oryx where
they re-trace the function.  Errors that oryx raises while tracing are `Except Err`, failures while
running the computation are `Except RErr`.
-/

namespace Verif.Harvest

/-- Modes of a sow.  harvest.py:455-456 accepts the four strings 'strict', 'append', 'clobber',
'cond_clobber' and raises for any other one, modelled by `invalid`. -/
inductive Mode
  | strict | append | clobber | condClobber | invalid
  deriving DecidableEq, Repr

/-- harvest.py:515 `{'clobber', 'cond_clobber'}` and `mode.endswith('clobber')` (harvest.py:1193). -/
def Mode.isClobber : Mode → Bool
  | .clobber | .condClobber => true
  | _ => false

/-- Harvested values (JAX pytrees of arrays).  `leaf` is one sown pytree of arrays, `dict` a dictionary
(what `nest` produces), `stack` is the result of stacking the per-iteration values of a scan along a
new leading axis, and `zeros` is "the array of zeros of the statically known shape" (harvest.py:893-896,
`lax.zeros_like_array` at harvest.py:722).  Simplification: shapes and dtypes are not modelled, so
`zeros` is one symbolic constant. -/
inductive Val (V : Type) where
  | leaf (v : V)
  | dict (f : String → Option (Val V))
  | stack (vs : List (Val V))
  | zeros

/-- A Python dictionary from names to values; order is irrelevant for every operation modelled with it.
(`reaps` and `plants`, harvest.py:506, 1180). -/
abbrev Dict (V : Type) := String → Option (Val V)

/-- Failures of the computation itself: `fuel` is the model's bound on while-loop iterations, `shape`
a run time mismatch (e.g. scanned operands of different lengths), `fail` any failure of a pure step.
(failures of JAX itself, not of harvest.py). -/
inductive RErr
  | fuel | shape | fail
  deriving DecidableEq, Repr

/-- Which call-like primitive is used: `core` is a call primitive handled by `process_call`
(harvest.py:412-418), `pjit` (harvest.py:1091-1167), `remat` (harvest.py:1057-1085), `customJvp`
(`process_custom_jvp_call`, harvest.py:586-613 and 1227-1235; first branch of the linear aux, i.e. not
under differentiation). -/
inductive CallKind
  | core | pjit | remat | customJvp
  deriving DecidableEq, Repr

/-- Programs.  `pre`/`post` are the pure glue around a primitive (operands are computed from the current
environment `A`, results are merged into the next environment `C`).
* `pure`  : any sequence of ordinary primitives.
* `seq`   : one equation after another.
* `sow`   : `sow_p` (harvest.py:182-305); `pred` is only used in mode `condClobber` (`sow_cond`).
* `nest`  : `nest_p` (harvest.py:308-380).
* `inline`: equations evaluated in place on part of the environment (`jaxpr_as_fun` called inside another
  trace); not a primitive.
* `call`  : call-like primitives.
* `cond`  : `lax.cond_p`/`switch` with `n+1` branches.
* `scan`  : `lax.scan_p`, with `reverse`; constants are part of the carry or of closures.
* `whileL`: `lax.while_p`. -/
inductive Prog (V : Type) : Type → Type → Type 1 where
  | pure {A B : Type} (f : A → Except RErr B) : Prog V A B
  | seq {A B C : Type} (p : Prog V A B) (q : Prog V B C) : Prog V A C
  | sow {A C : Type} (tag name : String) (mode : Mode) (pre : A → Val V) (pred : A → Bool)
      (post : A → Val V → C) : Prog V A C
  | nest {A X Y C : Type} (scope : String) (pre : A → X) (body : Prog V X Y) (post : A → Y → C) :
      Prog V A C
  | inline {A X Y C : Type} (pre : A → X) (body : Prog V X Y) (post : A → Y → C) : Prog V A C
  | call {A X Y C : Type} (kind : CallKind) (pre : A → X) (body : Prog V X Y) (post : A → Y → C) :
      Prog V A C
  | cond {A X Y C : Type} (n : Nat) (sel : A → Fin (n + 1)) (pre : A → X)
      (branches : Fin (n + 1) → Prog V X Y) (post : A → Y → C) : Prog V A C
  | scan {A K X Y C : Type} (reverse : Bool) (pre : A → K × List X)
      (body : Prog V (K × X) (K × Y)) (post : A → K → List Y → C) : Prog V A C
  | whileL {A K C : Type} (pre : A → K) (test : Prog V K Bool) (body : Prog V K K)
      (post : A → K → C) : Prog V A C

/-! ### Plain execution (no harvest transformation) -/

/-- Execution of the iterations of a scan in the order of the list (`lax.scan_p`, bound at harvest.py:897). -/
def scanM {K X Y : Type} (f : K × X → Except RErr (K × Y)) : K → List X → Except RErr (K × List Y)
  | k, [] => .ok (k, [])
  | k, x :: xs => do
    let (k', y) ← f (k, x)
    let (k'', ys) ← scanM f k' xs
    return (k'', y :: ys)

/-- `lax.scan`: with `reverse` the iterations run from the last element to the first and the outputs are
stored at the index of their input (bound at harvest.py:897-909). -/
def scanDir {K X Y : Type} (reverse : Bool) (f : K × X → Except RErr (K × Y)) (k : K) (xs : List X) :
    Except RErr (K × List Y) :=
  if reverse then (scanM f k xs.reverse).map (fun r => (r.1, r.2.reverse)) else scanM f k xs

/-- `lax.while_loop`, bounded by fuel (bound at harvest.py:980-986). -/
def loopM {K : Type} (c : K → Except RErr Bool) (b : K → Except RErr K) : Nat → K → Except RErr K
  | 0, _ => .error .fuel
  | n + 1, k => do
    if ← c k then
      let k' ← b k
      loopM c b n k'
    else
      return k

/-- Running a program outside of any transformation: `sow` is the identity (`_sow_impl`,
harvest.py:197-199), `nest` just calls the function (`_nest_impl`, harvest.py:311-312). -/
def run {V : Type} (fuel : Nat) : {A B : Type} → Prog V A B → A → Except RErr B
  | _, _, .pure f, a => f a
  | _, _, .seq p q, a => do
    let b ← run fuel p a
    run fuel q b
  | _, _, .sow _ _ _ pre _ post, a => .ok (post a (pre a))
  | _, _, .nest _ pre body post, a => (run fuel body (pre a)).map (post a)
  | _, _, .inline pre body post, a => (run fuel body (pre a)).map (post a)
  | _, _, .call _ pre body post, a => (run fuel body (pre a)).map (post a)
  | _, _, .cond _ sel pre br post, a => (run fuel (br (sel a)) (pre a)).map (post a)
  | _, _, .scan rev pre body post, a =>
    (scanDir rev (fun kx => run fuel body kx) (pre a).1 (pre a).2).map (fun r => post a r.1 r.2)
  | _, _, .whileL pre test body post, a =>
    (loopM (fun k => run fuel test k) (fun k => run fuel body k) fuel (pre a)).map (post a)

/-! ### Settings and dispatch -/

/-- harvest.py:439-445 `HarvestSettings`. -/
structure Settings where
  tag : String
  blocklist : List String
  allowlist : Option (List String)
  exclusive : Bool

/-- What `HarvestContext.process_sow` does with a sow of a valid mode (harvest.py:457-466): return the
values (`drop`), bind the sow in the parent trace (`forward`) or call `handle_sow` (`handle`). -/
inductive Disp
  | drop | forward | handle
  deriving DecidableEq, Repr

/-- harvest.py:457-466, branch by branch. -/
def Settings.dispatch (S : Settings) (tag name : String) : Disp :=
  if tag ≠ S.tag then
    if S.exclusive then .drop else .forward
  else if (match S.allowlist with | some l => !(l.contains name) | none => false) then .drop
  else if S.blocklist.contains name then .drop
  else .handle

/-- Errors raised while tracing (harvest.py:456, 516, 850, 940, 1001-1010, 1191). -/
inductive Err
  | invalidMode            -- harvest.py:455-456
  | alreadyReaped (n : String)   -- harvest.py:515-516
  | strictInScan (n : String)    -- harvest.py:849-850
  | predNone                     -- `lax.cond` on the predicate `None`, see `metaScan`
  | nonClobberInWhile (n : String) -- harvest.py:939-943
  | branchCount                  -- harvest.py:1001-1002
  | branchMissing (n : String)   -- harvest.py:1004-1005
  | branchPred (n : String)      -- see `metaCond`
  | alreadyPlanted (n : String)  -- harvest.py:1190-1191
  deriving DecidableEq, Repr

/-! ### reap: static metadata -/

/-- The metadata dictionary `name ↦ mode` of the values reaped so far (harvest.py:531-532, 656). -/
abbrev Meta := List (String × Mode)

/-- Dictionary lookup (`self.reaps.get(name)`, harvest.py:514). -/
def Meta.get (m : Meta) (n : String) : Option Mode := List.lookup n m

/-- `d[n] = mode`; the old entry is replaced (harvest.py:532). -/
def Meta.set (m : Meta) (n : String) (mode : Mode) : Meta :=
  (n, mode) :: m.filter (fun e => e.1 ≠ n)

/-- Static part of `ReapContext.handle_sow` (harvest.py:511-533): the second sow of a name is an error
unless both are in `{'clobber', 'cond_clobber'}`. -/
def Meta.handle (m : Meta) (n : String) (mode : Mode) : Except Err Meta :=
  match m.get n with
  | some prev =>
    if mode.isClobber && prev.isClobber then .ok (m.set n mode) else .error (.alreadyReaped n)
  | none => .ok (m.set n mode)

/-- Re-sowing the reaps of an inner function in the current context (harvest.py:577-583, 913-918,
988-990, 1048-1050, 1082-1084, 1164-1166).  Every name of the inner metadata already passed
`process_sow` with the same settings, so dispatching it again takes the same branch; the model goes
straight to `handle_sow`. -/
def Meta.resow (m : Meta) : Meta → Except Err Meta
  | [] => .ok m
  | (n, mode) :: rest => do
    let m' ← Meta.resow m rest
    m'.handle n mode

/-- Insertion of an entry in a list sorted by key (see `sortKeys`, harvest.py:654-656). -/
def insKey (e : String × Mode) : Meta → Meta
  | [] => [e]
  | x :: xs => if e.1 < x.1 then e :: x :: xs else x :: insKey e xs

/-- Python dictionaries that pass through `tree_util.tree_map` come out with sorted keys (harvest.py:654-656). -/
def sortKeys (m : Meta) : Meta := m.foldr insKey []

/-- The loop variable `mode` of harvest.py:846-857 after the loop: the mode of the last entry of the
(sorted) metadata.  `new_body` (harvest.py:868-885) passes *this* variable to `_update_clobber_carry`
for every name. -/
def leakedMode (m : Meta) : Option Mode := (sortKeys m).getLast?.map (·.2)

/-- Checks of `_reap_scan_rule` on the metadata of the body: no strict name (harvest.py:849-850).  If
the leaked `mode` is 'cond_clobber', `_update_clobber_carry` evaluates `lax.cond(preds[name], ..)` for
every carried name, which raises when `preds[name]` is `None`, i.e. when some carried name has mode
'clobber' (harvest.py:816-824). -/
def metaScan (inner : Meta) : Except Err Unit :=
  match inner.find? (fun e => e.2 == .strict) with
  | some e => .error (.strictInScan e.1)
  | none =>
    if leakedMode inner = some .condClobber && inner.any (fun e => e.2 == .clobber)
    then .error .predNone else .ok ()

/-- Check of `_reap_while_rule`/`_plant_while_rule` (harvest.py:937-943 and 1419-1425). -/
def metaWhile (inner : Meta) : Except Err Unit :=
  match inner.find? (fun e => !e.2.isClobber) with
  | some e => .error (.nonClobberInWhile e.1)
  | none => .ok ()

/-- `_check_branch_metadata` (harvest.py:997-1010) for one branch against the first one.  Simplification:
shape and dtype comparisons are not modelled (they only reject more programs).  The modes are *not*
compared by oryx; but if exactly one of the two branches has a predicate for the name, the flattened
outputs of the branches do not have the same number of leaves and `cond_p` is ill-typed, modelled by
`branchPred`. -/
def metaBranch (first b : Meta) : Except Err Unit :=
  if b.length ≠ first.length then .error .branchCount
  else match b.find? (fun e => (first.get e.1).isNone) with
    | some e => .error (.branchMissing e.1)
    | none =>
      match b.find? (fun e => (e.2 == .condClobber) != (first.get e.1 == some .condClobber)) with
      | some e => .error (.branchPred e.1)
      | none => .ok ()

/-- `_check_branch_metadata` for all branches (harvest.py:997-1010, 1024-1027). -/
def metaCond (first : Meta) : List Meta → Except Err Unit
  | [] => .ok ()
  | b :: bs => do
    metaBranch first b
    metaCond first bs

/-- Tracing a program under a `ReapContext` whose metadata so far is `m`: the resulting metadata or the
error raised (harvest.py:453-466, 511-613, 647-661, 788-813, 827-1167).  `_get_harvest_metadata` probes
the inner jaxprs with the same function. -/
def metaOf {V : Type} (S : Settings) : {A B : Type} → Prog V A B → Meta → Except Err Meta
  | _, _, .pure _, m => .ok m
  | _, _, .seq p q, m => do
    let m' ← metaOf S p m
    metaOf S q m'
  | _, _, .sow tag name mode _ _ _, m =>
    if mode = .invalid then .error .invalidMode
    else match S.dispatch tag name with
      | .handle => m.handle name mode
      | _ => .ok m
  | _, _, .nest scope _ body _, m => do
    let inner ← metaOf S body []
    if inner.isEmpty then return m
    match S.dispatch S.tag scope with
    | .handle => m.handle scope .strict
    | _ => return m
  | _, _, .inline _ body _, m => metaOf S body m
  | _, _, .call _ _ body _, m => do
    let inner ← metaOf S body []
    m.resow inner
  | _, _, .cond n _ _ br _, m => do
    let first ← metaOf S (br 0) []
    let metas ← (List.finRange (n + 1)).mapM (fun i => metaOf S (br i) [])
    metaCond first metas
    m.resow first
  | _, _, .scan _ _ body _, m => do
    let inner ← metaOf S body []
    metaScan inner
    m.resow inner
  | _, _, .whileL _ _ body _, m => do
    let inner ← metaOf S body []
    metaWhile inner
    m.resow inner

/-! ### reap: the transformed program -/

/-- harvest.py:495-499 `Reap` (the aval in the metadata is not modelled). -/
structure Reap (V : Type) where
  value : Val V
  pred : Option Bool
  mode : Mode

/-- The `reaps` dictionary of a `ReapContext` at run time (harvest.py:506). -/
abbrev Reaps (V : Type) := String → Option (Reap V)

/-- The new entry stored by `ReapContext.handle_sow` (harvest.py:511-533) given the previous one. -/
def newReap {V : Type} (prev : Option (Reap V)) (mode : Mode) (v : Val V) (pred : Bool) : Reap V :=
  if mode = .condClobber then
    match prev with
    | some r =>
      if r.mode = .clobber then ⟨if pred then v else r.value, some pred, mode⟩
      else if r.mode = .condClobber then
        ⟨if pred then v else r.value, some (pred || r.pred.getD false), mode⟩
      else ⟨v, some pred, mode⟩
    | none => ⟨v, some pred, mode⟩
  else ⟨v, none, mode⟩

/-- `self.reaps[name] = Reap(vals, pred, metadata)` (harvest.py:532). -/
def Reaps.handle {V : Type} (d : Reaps V) (n : String) (mode : Mode) (v : Val V) (pred : Bool) :
    Reaps V :=
  fun k => if k = n then some (newReap (d n) mode v pred) else d k

/-- Re-sowing the reaps `d'` of an inner function, with modes taken from the metadata `m` (see
`Meta.resow`).  The names are distinct, so sowing them one after the other is pointwise.
(harvest.py:577-583, 913-918, 988-990, 1048-1050, 1082-1084, 1164-1166). -/
def Reaps.resow {V : Type} (d : Reaps V) (m : Meta) (d' : Reaps V) : Reaps V :=
  fun k =>
    match m.get k, d' k with
    | some mode, some r => some (newReap (d k) mode r.value (r.pred.getD false))
    | _, _ => d k

/-- Initial carried reaps of a loop: zeros, with predicate `False` in mode 'cond_clobber'
(harvest.py:852-857, 892-896, 944-946, 977-979). -/
def carryInit {V : Type} (m : Meta) : Reaps V :=
  fun k =>
    match m.get k with
    | some .clobber => some ⟨.zeros, none, .clobber⟩
    | some .condClobber => some ⟨.zeros, some false, .condClobber⟩
    | _ => none

/-- `_update_clobber_carry` (harvest.py:816-824) for the name of carried entry `c` and the reap `r` of
this iteration, with the `mode` it is called with. -/
def updateCarry {V : Type} (mode : Option Mode) (c : Reap V) (r : Reap V) : Reap V :=
  if mode = some .condClobber then
    if r.pred.getD false then { c with value := r.value, pred := some true } else c
  else { c with value := r.value }

/-- One iteration of the carried reaps: every reaped name that is carried is updated
(harvest.py:879-881, 963-965).  `mode k` is the mode passed for name `k`. -/
def carryStep {V : Type} (mode : String → Option Mode) (c : Reaps V) (rd : Reaps V) : Reaps V :=
  fun k =>
    match c k, rd k with
    | some ck, some r => some (updateCarry (mode k) ck r)
    | c', _ => c'

/-- The reaps of a scan that are re-sown after it: the carried ones, and the stacked values of the names
in mode 'append' (harvest.py:882-885, 913-918). -/
def scanReaps {V : Type} (m : Meta) (c : Reaps V) (ys : List (Reaps V)) : Reaps V :=
  fun k =>
    match m.get k with
    | some .append => some ⟨.stack (ys.filterMap (fun rd => (rd k).map (·.value))), none, .append⟩
    | _ => c k

/-- The metadata of a body whose tracing succeeds, `[]` otherwise (only used on programs that are
accepted, see `callAndReap`) (`_get_harvest_metadata`, harvest.py:794-813). -/
def metaD {V A B : Type} (S : Settings) (p : Prog V A B) : Meta :=
  match metaOf S p [] with
  | .ok m => m
  | .error _ => []

/-- The function run under a `ReapContext`: a program that threads the `reaps` dictionary.
(harvest.py:503-661, 827-1170). -/
def reapT {V : Type} (S : Settings) :
    {A B : Type} → Prog V A B → Prog V (A × Reaps V) (B × Reaps V)
  | _, _, .pure f => .pure (fun a => (f a.1).map (fun b => (b, a.2)))
  | _, _, .seq p q => .seq (reapT S p) (reapT S q)
  | _, _, .sow tag name mode pre pred post =>
    -- process_sow, harvest.py:453-466; handle_sow returns the values unchanged (harvest.py:533)
    match S.dispatch tag name with
    | .drop => .pure (fun a => .ok (post a.1 (pre a.1), a.2))
    | .forward =>
      .sow tag name mode (fun a => pre a.1) (fun a => pred a.1) (fun a v => (post a.1 v, a.2))
    | .handle =>
      .pure (fun a => .ok (post a.1 (pre a.1), a.2.handle name mode (pre a.1) (pred a.1)))
  | _, _, .nest scope pre body post =>
    -- process_nest, harvest.py:558-567: predicates and metadata of the inner reaps are dropped
    .nest scope (fun a => (pre a.1, fun _ => none)) (reapT S body)
      (fun a y =>
        (post a.1 y.1,
          if (metaD S body).isEmpty then a.2
          else match S.dispatch S.tag scope with
            | .handle => a.2.handle scope .strict (.dict (fun k => (y.2 k).map (·.value))) false
            | _ => a.2))
  | _, _, .inline pre body post =>
    .inline (fun a => (pre a.1, a.2)) (reapT S body) (fun a y => (post a.1 y.1, y.2))
  | _, _, .call kind pre body post =>
    .call kind (fun a => (pre a.1, fun _ => none)) (reapT S body)
      (fun a y => (post a.1 y.1, a.2.resow (metaD S body) y.2))
  | _, _, .cond n sel pre br post =>
    -- _reap_cond_rule, harvest.py:1013-1051: modes of the first branch
    .cond n (fun a => sel a.1) (fun a => (pre a.1, fun _ => none)) (fun i => reapT S (br i))
      (fun a y => (post a.1 y.1, a.2.resow (metaD S (br 0)) y.2))
  | _, _, .scan rev pre body post =>
    -- _reap_scan_rule, harvest.py:827-919
    .scan rev (fun a => (((pre a.1).1, carryInit (metaD S body)), (pre a.1).2))
      (.seq (.pure (fun kx => .ok (((kx.1.1, kx.2), (fun _ => none : Reaps V)), kx.1.2)))
        (.seq
          (.inline (fun a => a.1) (reapT S body) (fun a y => (y, a.2)))
          (.pure (fun r => .ok ((r.1.1.1,
            carryStep (fun _ => leakedMode (metaD S body)) r.2 r.1.2), (r.1.1.2, r.1.2))))))
      (fun a kc ys => (post a.1 kc.1 (ys.map (·.1)),
        a.2.resow (metaD S body) (scanReaps (metaD S body) kc.2 (ys.map (·.2)))))
  | _, _, .whileL pre test body post =>
    -- _reap_while_rule, harvest.py:925-991: the test is run as it is (`new_cond`)
    .whileL (fun a => (pre a.1, carryInit (metaD S body)))
      (.seq (.pure (fun k => .ok k.1)) test)
      (.seq (.pure (fun k => .ok ((k.1, (fun _ => none : Reaps V)), k.2)))
        (.seq
          (.inline (fun a => a.1) (reapT S body) (fun a y => (y, a.2)))
          (.pure (fun r => .ok (r.1.1, carryStep (metaD S body).get r.2 r.1.2)))))
      (fun a k => (post a.1 k.1, a.2.resow (metaD S body) k.2))

/-- `select_from_pred` (harvest.py:717-724): zeros when the predicate is false. -/
def selectFromPred {V : Type} (r : Reap V) : Val V :=
  match r.pred with
  | some false => .zeros
  | _ => r.value

/-- `call_and_reap` (harvest.py:685-752). -/
def callAndReap {V A B : Type} (S : Settings) (f : Prog V A B) : Except Err (Prog V A (B × Dict V)) :=
  match metaOf S f [] with
  | .error e => .error e
  | .ok _ => .ok
    (.seq (.pure (fun a => .ok (a, fun _ => none)))
      (.seq (reapT S f) (.pure (fun r => .ok (r.1, fun k => (r.2 k).map selectFromPred)))))

/-- `reap` (harvest.py:755-785): the second component of `call_and_reap`. -/
def reap {V A B : Type} (S : Settings) (f : Prog V A B) : Except Err (Prog V A (Dict V)) :=
  (callAndReap S f).map (fun g => .seq g (.pure (fun r => .ok r.2)))

/-! ### plant -/

/-- `plants.get(scope, {})` (harvest.py:1221).  Simplification: a plant for a scope that is not a
dictionary is treated as the empty dictionary. -/
def subPlants {V : Type} (P : Dict V) (scope : String) : Dict V :=
  match P scope with
  | some (.dict f) => f
  | _ => fun _ => none

/-- The plants used inside the body of a scan: names with mode clobber/cond_clobber keep their value,
names with mode append are scanned over, other names are not passed (harvest.py:1347-1373). -/
def scanPlants {V : Type} (m : Meta) (P : Dict V) : Dict V :=
  fun k => if (m.get k).isSome then P k else none

/-- Tracing a program under a `PlantContext`: the error raised or the new `_already_planted`.  Only the
keys of `P` are used.  (harvest.py:453-466, 1188-1246, 1287-1582) -/
def plantCheck {V : Type} (S : Settings) :
    {A B : Type} → Prog V A B → Dict V → List String → Except Err (List String)
  | _, _, .pure _, _, st => .ok st
  | _, _, .seq p q, P, st => do
    let st' ← plantCheck S p P st
    plantCheck S q P st'
  | _, _, .sow tag name mode _ _ _, P, st =>
    if mode = .invalid then .error .invalidMode
    else match S.dispatch tag name with
      | .handle =>
        if st.contains name then .error (.alreadyPlanted name)
        else if (P name).isSome && !mode.isClobber then .ok (name :: st)
        else .ok st
      | _ => .ok st
  | _, _, .nest scope _ body _, P, st => do
    let _ ← plantCheck S body (subPlants P scope) []
    return st
  | _, _, .inline _ body _, P, st => plantCheck S body P st
  | _, _, .call kind _ body _, P, st =>
    match kind with
    | .customJvp => plantCheck S body P st   -- `_subtrace(fun, trace.context)`, harvest.py:1229
    | _ => do
      let _ ← plantCheck S body P []
      return st
  | _, _, .cond n _ _ br _, P, st => do
    let first ← metaOf S (br 0) []
    let metas ← (List.finRange (n + 1)).mapM (fun i => metaOf S (br i) [])
    metaCond first metas
    let _ ← (List.finRange (n + 1)).mapM (fun i => plantCheck S (br i) P [])
    return st
  | _, _, .scan _ _ body _, P, st => do
    let inner ← metaOf S body []
    match inner.find? (fun e => e.2 == .strict) with
    | some e => .error (.strictInScan e.1)
    | none =>
      let _ ← plantCheck S body (scanPlants inner P) []
      return st
  | _, _, .whileL _ _ body _, P, st => do
    let inner ← metaOf S body []
    metaWhile inner
    let _ ← plantCheck S body P []
    return st

/-- Names of the metadata in mode 'append' that are planted (harvest.py:1350-1357, 1364-1368). -/
def appendNames {V : Type} (m : Meta) (P : Dict V) : List String :=
  (m.filter (fun e => e.2 == .append && (P e.1).isSome)).map (·.1)

/-- The `len` slices along the leading axis of a planted value (a scanned operand); `shape` error if its
leading axis has another length (harvest.py:1392-1395). -/
def slices {V : Type} (len : Nat) : Val V → Except RErr (List (Val V))
  | .stack vs => if vs.length = len then .ok vs else .error .shape
  | .zeros => .ok (List.replicate len .zeros)
  | _ => .error .shape

/-- The plants for each iteration of a scan: `{**plants, **all_clobber_plants}` where `plants` are the
slices of the planted append names (harvest.py:1364-1377).  `ns` are the append names. -/
def iterPlants {V : Type} (base : Dict V) (P : Dict V) (len : Nat) :
    List String → Except RErr (List (Dict V))
  | [] => .ok (List.replicate len base)
  | n :: ns => do
    let rest ← iterPlants base P len ns
    match P n with
    | none => return rest
    | some v =>
      let vs ← slices len v
      return List.zipWith (fun d v => fun k => if k = n then some v else d k) rest vs

/-- Clobber plants of a scan body (harvest.py:1359-1363). -/
def clobberPlants {V : Type} (m : Meta) (P : Dict V) : Dict V :=
  fun k => match m.get k with
    | some mode => if mode.isClobber then P k else none
    | none => none

/-- Per-iteration plants of a scan over `len` elements (harvest.py:1375-1377, 1392-1395). -/
def allIterPlants {V : Type} (m : Meta) (P : Dict V) (len : Nat) : Except RErr (List (Dict V)) :=
  iterPlants (clobberPlants m P) P len (appendNames m P)

/-- The function run under a `PlantContext`.  `P0` is the plants dictionary as known while tracing (only
its keys are used); the values are passed at run time beside the environment.  harvest.py:1188-1582. -/
def plantT {V : Type} (S : Settings) :
    {A B : Type} → Prog V A B → Dict V → Prog V (A × Dict V) (B × Dict V)
  | _, _, .pure f, _ => .pure (fun a => (f a.1).map (fun b => (b, a.2)))
  | _, _, .seq p q, P0 => .seq (plantT S p P0) (plantT S q P0)
  | _, _, .sow tag name mode pre pred post, P0 =>
    match S.dispatch tag name with
    | .drop => .pure (fun a => .ok (post a.1 (pre a.1), a.2))
    | .forward =>
      .sow tag name mode (fun a => pre a.1) (fun a => pred a.1) (fun a v => (post a.1 v, a.2))
    | .handle =>
      -- PlantContext.handle_sow, harvest.py:1188-1199
      if (P0 name).isSome then
        .pure (fun a => match a.2 name with
          | some v => .ok (post a.1 v, a.2)
          | none => .error .shape)
      else
        .sow tag name mode (fun a => pre a.1) (fun a => pred a.1) (fun a v => (post a.1 v, a.2))
  | _, _, .nest scope pre body post, P0 =>
    .nest scope (fun a => (pre a.1, subPlants a.2 scope)) (plantT S body (subPlants P0 scope))
      (fun a y => (post a.1 y.1, a.2))
  | _, _, .inline pre body post, P0 =>
    .inline (fun a => (pre a.1, a.2)) (plantT S body P0) (fun a y => (post a.1 y.1, a.2))
  | _, _, .call kind pre body post, P0 =>
    .call kind (fun a => (pre a.1, a.2)) (plantT S body P0) (fun a y => (post a.1 y.1, a.2))
  | _, _, .cond n sel pre br post, P0 =>
    .cond n (fun a => sel a.1) (fun a => (pre a.1, a.2)) (fun i => plantT S (br i) P0)
      (fun a y => (post a.1 y.1, a.2))
  | _, _, .scan rev pre body post, P0 =>
    -- _plant_scan_rule, harvest.py:1330-1404
    .seq
      (.pure (fun a => do
        let kx := pre a.1
        let ps ← allIterPlants (metaD S body) a.2 kx.2.length
        return (a, kx.1, kx.2.zip ps)))
      (.scan rev (fun a => a.2)
        (.seq (.pure (fun kx => .ok ((kx.1, kx.2.1), kx.2.2)))
          (.seq (plantT S body (scanPlants (metaD S body) P0)) (.pure (fun r => .ok r.1))))
        (fun a k ys => (post a.1.1 k ys, a.1.2)))
  | _, _, .whileL pre test body post, P0 =>
    -- _plant_while_rule, harvest.py:1410-1451: only the body is planted
    .whileL (fun a => (pre a.1, a.2))
      (.seq (.pure (fun k => .ok k.1)) test)
      (plantT S body P0)
      (fun a k => (post a.1 k.1, a.2))

/-- `plant(f)(plants, ·)` (harvest.py:1264-1327). -/
def plant {V A B : Type} (S : Settings) (f : Prog V A B) (P : Dict V) : Except Err (Prog V A B) :=
  match plantCheck S f P [] with
  | .error e => .error e
  | .ok _ => .ok
    (.seq (.pure (fun a => .ok (a, P))) (.seq (plantT S f P) (.pure (fun r => .ok r.1))))

/-- `harvest(f)(plants, ·)` (harvest.py:1585-1593): `call_and_reap(plant(f))`. -/
def harvest {V A B : Type} (S : Settings) (f : Prog V A B) (P : Dict V) :
    Except Err (Prog V A (B × Dict V)) := do
  let g ← plant S f P
  callAndReap S g

end Verif.Harvest
