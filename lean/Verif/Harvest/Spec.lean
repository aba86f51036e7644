/-
Independent specification for the harvest properties: the sow sites of a program, the structured log of
an execution, and the value that a user expects to be reaped from a log.  Nothing here mentions the
`reap`/`plant` transformations.
-/
import Verif.Harvest.Model

namespace Verif.Harvest

/-- A place in the program text where something is sown. -/
inductive Site where
  | sow (tag name : String) (mode : Mode)
  | nest (scope : String) (inner : List Site)

/-- The sow sites of a program, in program order.  Branches of a conditional must sow the same names, the
first one is listed. -/
def sites {V : Type} : {A B : Type} → Prog V A B → List Site
  | _, _, .pure _ => []
  | _, _, .seq p q => sites p ++ sites q
  | _, _, .sow tag name mode _ _ _ => [.sow tag name mode]
  | _, _, .nest scope _ body _ => [.nest scope (sites body)]
  | _, _, .inline _ body _ => sites body
  | _, _, .call _ _ body _ => sites body
  | _, _, .cond _ _ _ br _ => sites (br 0)
  | _, _, .scan _ _ body _ => sites body
  | _, _, .whileL _ _ body _ => sites body

/-- An executed event.
* `sow`: a value was sown (`pred` is the predicate of `sow_cond`).
* `nest`: a nested scope was executed, with its sites and its log.
* `scan`: a scan was executed: the sites of its body and the logs of the iterations *in index order*
  (with `reverse` the iterations were executed from the last to the first).
* `loop`: a while loop was executed: the sites of its body, the logs of its iterations in order, and the
  log of all evaluations of the test. -/
inductive Ev (V : Type) where
  | sow (tag name : String) (mode : Mode) (v : Val V) (pred : Bool)
  | nest (scope : String) (ss : List Site) (log : List (Ev V))
  | scan (reverse : Bool) (ss : List Site) (iters : List (List (Ev V)))
  | loop (ss : List Site) (iters : List (List (Ev V))) (tests : List (Ev V))

abbrev Log (V : Type) := List (Ev V)

/-- While loop that records the logs of the iterations and of the tests. -/
def loopT {V K : Type} (c : K → Except RErr (Bool × Log V)) (b : K → Except RErr (K × Log V)) :
    Nat → K → Except RErr (K × List (Log V) × Log V)
  | 0, _ => .error .fuel
  | n + 1, k => do
    let t ← c k
    if t.1 then
      let r ← b k
      let s ← loopT c b n r.1
      return (s.1, r.2 :: s.2.1, t.2 ++ s.2.2)
    else
      return (k, [], t.2)

/-- Execution of a program with its log. -/
def trace {V : Type} (fuel : Nat) : {A B : Type} → Prog V A B → A → Except RErr (B × Log V)
  | _, _, .pure f, a => (f a).map (fun b => (b, []))
  | _, _, .seq p q, a => do
    let r ← trace fuel p a
    let s ← trace fuel q r.1
    return (s.1, r.2 ++ s.2)
  | _, _, .sow tag name mode pre pred post, a =>
    .ok (post a (pre a), [.sow tag name mode (pre a) (pred a)])
  | _, _, .nest scope pre body post, a =>
    (trace fuel body (pre a)).map (fun r => (post a r.1, [.nest scope (sites body) r.2]))
  | _, _, .inline pre body post, a =>
    (trace fuel body (pre a)).map (fun r => (post a r.1, r.2))
  | _, _, .call _ pre body post, a =>
    (trace fuel body (pre a)).map (fun r => (post a r.1, r.2))
  | _, _, .cond _ sel pre br post, a =>
    (trace fuel (br (sel a)) (pre a)).map (fun r => (post a r.1, r.2))
  | _, _, .scan rev pre body post, a =>
    (scanDir rev (fun kx => (trace fuel body kx).map (fun r => (r.1.1, (r.1.2, r.2))))
      (pre a).1 (pre a).2).map
      (fun r => (post a r.1 (r.2.map (·.1)), [.scan rev (sites body) (r.2.map (·.2))]))
  | _, _, .whileL pre test body post, a =>
    (loopT (fun k => trace fuel test k) (fun k => trace fuel body k) fuel (pre a)).map
      (fun r => (post a r.1, [.loop (sites body) r.2.1 r.2.2]))

/-! ### Declared names and collected values -/

/-- A sow of `name` with `tag` takes part in a harvest with settings `S`. -/
def Settings.active (S : Settings) (tag name : String) : Bool :=
  tag == S.tag && (match S.allowlist with | some l => l.contains name | none => true)
    && !S.blocklist.contains name

mutual
/-- Some name is declared by the site. -/
def Site.any (S : Settings) : Site → Bool
  | .sow tag name _ => S.active tag name
  | .nest scope inner => S.active S.tag scope && anySite S inner
/-- Some name is declared by the sites. -/
def anySite (S : Settings) : List Site → Bool
  | [] => false
  | s :: ss => s.any S || anySite S ss
end

/-- The mode with which the site declares name `n`, if it does: a nested scope declares its own name, in
mode strict, when something is sown inside it. -/
def Site.declares (S : Settings) (n : String) : Site → Option Mode
  | .sow tag name mode => if name = n ∧ S.active tag name then some mode else none
  | .nest scope inner =>
    if scope = n ∧ S.active S.tag scope ∧ anySite S inner then some .strict else none

/-- The mode of the last site that declares `n`. -/
def declares (S : Settings) (n : String) : List Site → Option Mode
  | [] => none
  | s :: ss => (declares S n ss).or (s.declares S n)

/-- The last of a list of optional values. -/
def lastSome {α : Type} : List (Option α) → Option α
  | [] => none
  | o :: os => (lastSome os).or o

/-- Reverse a list when the scan is reversed: from index order to execution order. -/
def execOrder {α : Type} (reverse : Bool) (l : List α) : List α := if reverse then l.reverse else l

mutual
/-- The value that an event leaves for name `n`, if any:
* a sow leaves its value (a `sow_cond` only when its predicate holds);
* a nested scope leaves the dictionary of the names declared inside, zeros for those without a value;
* a scan leaves, for an 'append' name, the stack of the values of all iterations in index order, for a
  'clobber' name the last value in execution order (zeros if there is none), for a 'cond_clobber' name
  the last value in execution order if there is one;
* a while loop likewise. -/
def Ev.collect (S : Settings) (n : String) : Ev V → Option (Val V)
  | .sow tag name mode v pred =>
    if name = n ∧ S.active tag name ∧ (mode = .condClobber → pred = true) then some v else none
  | .nest scope ss log =>
    if scope = n ∧ S.active S.tag scope ∧ anySite S ss then
      some (.dict (fun k => if (declares S k ss).isSome then some ((collect S k log).getD .zeros) else none))
    else none
  | .scan rev ss iters =>
    match declares S n ss with
    | some .append => some (.stack ((collectIters S n iters).map (·.getD .zeros)))
    | some .clobber => some ((lastSome (execOrder rev (collectIters S n iters))).getD .zeros)
    | some .condClobber => lastSome (execOrder rev (collectIters S n iters))
    | _ => none
  | .loop ss iters tests =>
    (collect S n tests).or <|
      match declares S n ss with
      | some .clobber => some ((lastSome (collectIters S n iters)).getD .zeros)
      | some .condClobber => lastSome (collectIters S n iters)
      | _ => none
/-- The last value that a log leaves for name `n`. -/
def collect (S : Settings) (n : String) : List (Ev V) → Option (Val V)
  | [] => none
  | e :: es => (collect S n es).or (e.collect S n)
/-- The values left by each iteration. -/
def collectIters (S : Settings) (n : String) : List (List (Ev V)) → List (Option (Val V))
  | [] => []
  | l :: ls => collect S n l :: collectIters S n ls
end

/-- The dictionary a user expects from `reap`: one entry per declared name, holding the collected value
or zeros when no value was sown. -/
def expected {V A B : Type} (S : Settings) (f : Prog V A B) (log : Log V) : Dict V :=
  fun n => if (declares S n (sites f)).isSome then some ((collect S n log).getD .zeros) else none

/-! ### Executed sows, in execution order -/

mutual
/-- The values sown for name `n` during an event, in the order of execution (a `sow_cond` counts only when
its predicate holds; a nested scope counts as one sow of its dictionary). -/
def Ev.executed (S : Settings) (n : String) : Ev V → List (Val V)
  | .sow tag name mode v pred =>
    if name = n ∧ S.active tag name ∧ (mode = .condClobber → pred = true) then [v] else []
  | .nest scope ss log => (Ev.collect S n (.nest scope ss log)).toList
  | .scan rev _ iters => (execOrder rev (executedIters S n iters)).flatten
  | .loop _ iters tests => executed S n tests ++ (executedIters S n iters).flatten
/-- The values sown for `n` during a log. -/
def executed (S : Settings) (n : String) : List (Ev V) → List (Val V)
  | [] => []
  | e :: es => e.executed S n ++ executed S n es
def executedIters (S : Settings) (n : String) : List (List (Ev V)) → List (List (Val V))
  | [] => []
  | l :: ls => executed S n l :: executedIters S n ls
end

mutual
/-- No loop whose body sows `n` ran zero times. -/
def Ev.noZeroTrip (S : Settings) (n : String) : Ev V → Prop
  | .sow .. => True
  | .nest .. => True
  | .scan _ ss iters => ((declares S n ss).isSome → iters ≠ []) ∧ noZeroTripIters S n iters
  | .loop ss iters _ => ((declares S n ss).isSome → iters ≠ []) ∧ noZeroTripIters S n iters
def noZeroTrip (S : Settings) (n : String) : List (Ev V) → Prop
  | [] => True
  | e :: es => e.noZeroTrip S n ∧ noZeroTrip S n es
def noZeroTripIters (S : Settings) (n : String) : List (List (Ev V)) → Prop
  | [] => True
  | l :: ls => noZeroTrip S n l ∧ noZeroTripIters S n ls
end

/-! ### Static conditions on programs -/

/-- Every sow in the program text, in all branches, satisfies `P tag name mode`; `N` is required of every
nested scope name.  (Tests of while loops included when `tests` is set.) -/
def AllSows {V : Type} (tests : Bool) (P : String → String → Mode → Prop) (N : String → Prop) :
    {A B : Type} → Prog V A B → Prop
  | _, _, .pure _ => True
  | _, _, .seq p q => AllSows tests P N p ∧ AllSows tests P N q
  | _, _, .sow tag name mode _ _ _ => P tag name mode
  | _, _, .nest scope _ body _ => N scope ∧ AllSows tests P N body
  | _, _, .inline _ body _ => AllSows tests P N body
  | _, _, .call _ _ body _ => AllSows tests P N body
  | _, _, .cond _ _ _ br _ => ∀ i, AllSows tests P N (br i)
  | _, _, .scan _ _ body _ => AllSows tests P N body
  | _, _, .whileL _ test body _ => (tests = true → AllSows tests P N test) ∧ AllSows tests P N body

/-- Nothing in the program takes part in a harvest with settings `S`. -/
def Quiet {V A B : Type} (S : Settings) (p : Prog V A B) : Prop :=
  AllSows true (fun tag name _ => S.active tag name = false) (fun _ => True) p

/-- The restrictions under which `reap` is proved exact (each of them is necessary, see the witnesses in
`Props`).  `c n` says that name `n` is sown with `sow_cond` in the current scope.
* a name is sown either always with `sow_cond` or never;
* no `sow_cond` inside a nested scope;
* inside one scan, either all names are sown with `sow_cond` or none;
* the test of a while loop sows nothing that is harvested. -/
def Regular {V : Type} (S : Settings) : {A B : Type} → (c : String → Bool) → Prog V A B → Prop
  | _, _, _, .pure _ => True
  | _, _, c, .seq p q => Regular S c p ∧ Regular S c q
  | _, _, c, .sow tag name mode _ _ _ => S.active tag name → (mode = .condClobber ↔ c name = true)
  | _, _, c, .nest scope _ body _ => Regular S (fun _ => false) body ∧ c scope = false
  | _, _, c, .inline _ body _ => Regular S c body
  | _, _, c, .call _ _ body _ => Regular S c body
  | _, _, c, .cond _ _ _ br _ => ∀ i, Regular S c (br i)
  | _, _, c, .scan _ _ body _ => Regular S c body ∧
      ((∀ n, (declares S n (sites body)).isSome → c n = true) ∨
       (∀ n, (declares S n (sites body)).isSome → c n = false))
  | _, _, c, .whileL _ test body _ => Regular S c body ∧ Quiet S test

/-- Within the current scope (not inside nested scopes), name `n` is only ever sown with mode `k`.
A nested scope called `n` counts as a strict sow. -/
def OnlyMode {V : Type} (S : Settings) (n : String) (k : Mode) : {A B : Type} → Prog V A B → Prop
  | _, _, .pure _ => True
  | _, _, .seq p q => OnlyMode S n k p ∧ OnlyMode S n k q
  | _, _, .sow tag name mode _ _ _ => name = n → S.active tag name = true → mode = k
  | _, _, .nest scope _ _ _ => scope = n → S.active S.tag scope = true → k = .strict
  | _, _, .inline _ body _ => OnlyMode S n k body
  | _, _, .call _ _ body _ => OnlyMode S n k body
  | _, _, .cond _ _ _ br _ => ∀ i, OnlyMode S n k (br i)
  | _, _, .scan _ _ body _ => OnlyMode S n k body
  | _, _, .whileL _ _ body _ => OnlyMode S n k body

/-- All the modes with which `n` is declared in the current scope, in program order. -/
def occurrences (S : Settings) (n : String) (ss : List Site) : List Mode :=
  ss.filterMap (fun s => s.declares S n)

/-- `ss` is the list of sites met along one way through the branches of the program. -/
def Path {V : Type} : {A B : Type} → Prog V A B → List Site → Prop
  | _, _, .pure _, ss => ss = []
  | _, _, .seq p q, ss => ∃ l r, Path p l ∧ Path q r ∧ ss = l ++ r
  | _, _, .sow tag name mode _ _ _, ss => ss = [.sow tag name mode]
  | _, _, .nest scope _ body _, ss => ∃ l, Path body l ∧ ss = [.nest scope l]
  | _, _, .inline _ body _, ss => Path body ss
  | _, _, .call _ _ body _, ss => Path body ss
  | _, _, .cond _ _ _ br _, ss => ∃ i, Path (br i) ss
  | _, _, .scan _ _ body _, ss => Path body ss
  | _, _, .whileL _ _ body _, ss => Path body ss

/-- No scan and no while loop in the current scope. -/
def LoopFree {V : Type} : {A B : Type} → Prog V A B → Prop
  | _, _, .pure _ => True
  | _, _, .seq p q => LoopFree p ∧ LoopFree q
  | _, _, .sow .. => True
  | _, _, .nest .. => True
  | _, _, .inline _ body _ => LoopFree body
  | _, _, .call _ _ body _ => LoopFree body
  | _, _, .cond _ _ _ br _ => ∀ i, LoopFree (br i)
  | _, _, .scan .. => False
  | _, _, .whileL .. => False

end Verif.Harvest
