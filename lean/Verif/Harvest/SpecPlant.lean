/-
Independent specification of `plant`: the execution of a program in which the outputs of some sows are
overridden.  Nothing here mentions the transformation of the model.
-/
import Verif.Harvest.Spec

namespace Verif.Harvest

/-- The value is the dictionary of a nested scope. -/
def Val.isDict {V : Type} : Val V → Bool
  | .dict _ => true
  | _ => false

/-- The plants for the names inside scope `s`. -/
def inScope {V : Type} (P : Dict V) (s : String) : Dict V :=
  match P s with
  | some (.dict f) => f
  | _ => fun _ => none

/-- Entry `i` along the leading axis. -/
def Val.entry {V : Type} (i : Nat) : Val V → Option (Val V)
  | .stack vs => vs[i]?
  | .zeros => some .zeros
  | _ => none

/-- The value has a leading axis of length `len`. -/
def Val.hasEntries {V : Type} (len : Nat) : Val V → Prop
  | .stack vs => vs.length = len
  | .zeros => True
  | _ => False

/-- The plants seen by iteration `i` of a loop whose body has sites `ss`: entry `i` of the plant for a name
in mode append, the plant itself for other names. -/
def iterPlant {V : Type} (S : Settings) (ss : List Site) (P : Dict V) (i : Nat) : Dict V :=
  fun k => if declares S k ss = some .append then (P k).bind (Val.entry i) else P k

/-- Every planted append name has one entry per iteration. -/
def entriesOk {V : Type} (S : Settings) (ss : List Site) (P : Dict V) (len : Nat) : Prop :=
  ∀ n v, declares S n ss = some .append → P n = some v → v.hasEntries len

mutual
/-- The sites that remain after planting `P` with settings `S`: a sow disappears if it is overridden or
dropped by the settings. -/
def Site.kept {V : Type} (S : Settings) (P : Dict V) : Site → List Site
  | .sow tag name mode =>
    if S.active tag name then (if (P name).isSome then [] else [.sow tag name mode])
    else if tag ≠ S.tag ∧ S.exclusive = false then [.sow tag name mode] else []
  | .nest scope inner => [.nest scope (keptSites S (inScope P scope) inner)]
def keptSites {V : Type} (S : Settings) (P : Dict V) : List Site → List Site
  | [] => []
  | s :: ss => s.kept S P ++ keptSites S P ss
end

open Classical in
/-- Execution of a program when the sows planted by `P` return the planted value; the log contains the sows
that remain. -/
noncomputable def ptrace {V : Type} (S : Settings) (fuel : Nat) :
    {A B : Type} → Prog V A B → Dict V → A → Except RErr (B × Log V)
  | _, _, .pure f, _, a => (f a).map (fun b => (b, []))
  | _, _, .seq p q, P, a => do
    let r ← ptrace S fuel p P a
    let s ← ptrace S fuel q P r.1
    return (s.1, r.2 ++ s.2)
  | _, _, .sow tag name mode pre pred post, P, a =>
    if S.active tag name then
      match P name with
      | some v => .ok (post a v, [])                                     -- overridden
      | none => .ok (post a (pre a), [.sow tag name mode (pre a) (pred a)])
    else if tag ≠ S.tag ∧ S.exclusive = false then
      .ok (post a (pre a), [.sow tag name mode (pre a) (pred a)])        -- other tag
    else .ok (post a (pre a), [])                                        -- dropped by the settings
  | _, _, .nest scope pre body post, P, a =>
    (ptrace S fuel body (inScope P scope) (pre a)).map
      (fun r => (post a r.1, [.nest scope (keptSites S (inScope P scope) (sites body)) r.2]))
  | _, _, .inline pre body post, P, a =>
    (ptrace S fuel body P (pre a)).map (fun r => (post a r.1, r.2))
  | _, _, .call _ pre body post, P, a =>
    (ptrace S fuel body P (pre a)).map (fun r => (post a r.1, r.2))
  | _, _, .cond _ sel pre br post, P, a =>
    (ptrace S fuel (br (sel a)) P (pre a)).map (fun r => (post a r.1, r.2))
  | _, _, .scan rev pre body post, P, a =>
    if entriesOk S (sites body) P (pre a).2.length then
      (scanDir rev (fun kx : _ × _ × Nat =>
          (ptrace S fuel body (iterPlant S (sites body) P kx.2.2) (kx.1, kx.2.1)).map
            (fun r => (r.1.1, (r.1.2, r.2))))
        (pre a).1 (pre a).2.zipIdx).map
        (fun r => (post a r.1 (r.2.map (·.1)), [.scan rev (keptSites S P (sites body)) (r.2.map (·.2))]))
    else .error .shape
  | _, _, .whileL pre test body post, P, a =>
    (loopT (fun k => trace fuel test k) (fun k => ptrace S fuel body P k) fuel (pre a)).map
      (fun r => (post a r.1, [.loop (keptSites S P (sites body)) r.2.1 r.2.2]))

/-- The names of all nested scopes take part in the harvest (the lists are about sown names). -/
def ScopesActive {V A B : Type} (S : Settings) (p : Prog V A B) : Prop :=
  AllSows false (fun _ _ _ => True) (fun s => S.active S.tag s = true) p

/-- Dictionaries of nested scopes are not stacked (a nested scope cannot occur in a scan). -/
inductive PlainV {V : Type} : Option (Val V) → Prop
  | none : PlainV none
  | leaf (v) : PlainV (some (.leaf v))
  | zeros : PlainV (some .zeros)
  | stack (vs : List (Val V)) (h : ∀ v ∈ vs, v.isDict = false) (h' : ∀ v ∈ vs, PlainV (some v)) : PlainV (some (.stack vs))
  | dict (f : String → Option (Val V)) (h : ∀ k, PlainV (f k)) : PlainV (some (.dict f))

/-- All plants are plain. -/
def Plain {V : Type} (P : Dict V) : Prop := ∀ k, PlainV (P k)

mutual
/-- The log without the sows that are dropped by the settings (a blocked name, or another tag when
`exclusive` is set). -/
def Ev.keptLog {V : Type} (S : Settings) : Ev V → List (Ev V)
  | .sow tag name mode v pred =>
    if S.active tag name ∨ (tag ≠ S.tag ∧ S.exclusive = false) then [.sow tag name mode v pred] else []
  | .nest scope ss log => [.nest scope (keptSites (V := V) S (fun _ => none) ss) (keptLog S log)]
  | .scan rev ss iters => [.scan rev (keptSites (V := V) S (fun _ => none) ss) (keptIters S iters)]
  | .loop ss iters tests =>
    [.loop (keptSites (V := V) S (fun _ => none) ss) (keptIters S iters) tests]
def keptLog {V : Type} (S : Settings) : List (Ev V) → List (Ev V)
  | [] => []
  | e :: es => e.keptLog S ++ keptLog S es
def keptIters {V : Type} (S : Settings) : List (List (Ev V)) → List (List (Ev V))
  | [] => []
  | l :: ls => keptLog S l :: keptIters S ls
end

end Verif.Harvest
