/-
Small concrete programs used to show that the hypotheses of the property theorems are met, and as
counterexamples.
-/
import Verif.Harvest.Spec

namespace Verif.Harvest.Ex

/-- Harvest settings with tag "t" and nothing else. -/
def S0 : Settings := ⟨"t", [], none, false⟩

/-- `x = sow(x, tag, name, mode)` on a number. -/
def sw (tag name : String) (mode : Mode) : Prog Nat Nat Nat :=
  .sow tag name mode .leaf (fun _ => true) (fun a v => match v with | .leaf x => x | _ => a)

/-- `x = sow_cond(x, x < k, ...)`. -/
def swc (tag name : String) (k : Nat) : Prog Nat Nat Nat :=
  .sow tag name .condClobber .leaf (fun a => decide (a < k)) (fun a v => match v with | .leaf x => x | _ => a)

/-- `x = g(x)`. -/
def fn (g : Nat → Nat) : Prog Nat Nat Nat := .pure (fun a => .ok (g a))

/-- `x, _ = scan(body, x, xs)`, where the body adds the scanned element to the carry. -/
def sc (rev : Bool) (xs : List Nat) (body : Prog Nat Nat Nat) : Prog Nat Nat Nat :=
  .scan rev (fun a => (a, xs)) (.seq (.pure (fun kx => .ok (kx.1 + kx.2))) (.seq body (.pure (fun a => .ok (a, a)))))
    (fun _ k _ => k)

/-- `while x < k: x = body(x)`. -/
def wh (k : Nat) (body : Prog Nat Nat Nat) : Prog Nat Nat Nat :=
  .whileL id (.pure (fun a => .ok (decide (a < k)))) body (fun _ k => k)

/-- `x = body_b(x) if x < k else body_a(x)` -/
def cd (k : Nat) (a b : Prog Nat Nat Nat) : Prog Nat Nat Nat :=
  .cond 1 (fun x => if x < k then 1 else 0) id (fun i => if i = 0 then a else b) (fun _ y => y)

/-- `x = nest(body, scope)(x)`. -/
def ns (scope : String) (body : Prog Nat Nat Nat) : Prog Nat Nat Nat :=
  .nest scope id body (fun _ y => y)

/-- `x = jit(body)(x)`. -/
def jt (body : Prog Nat Nat Nat) : Prog Nat Nat Nat := .call .pjit id body (fun _ y => y)

/-- A program that uses all constructs:
strict "x"; a nested scope "s" with strict "x"; a reverse scan that appends "ys" and clobbers "c"; a while
loop clobbering "c"; a conditional sowing "z" in both branches; a jitted sow of another tag. -/
def demo : Prog Nat Nat Nat :=
  .seq (sw "t" "x" .strict) <|
  .seq (ns "s" (.seq (fn (· + 1)) (sw "t" "x" .strict))) <|
  .seq (sc true [10, 20] (.seq (sw "t" "ys" .append) (sw "t" "c" .clobber))) <|
  .seq (wh 40 (.seq (fn (· + 7)) (sw "t" "c" .clobber))) <|
  .seq (cd 50 (sw "t" "z" .strict) (.seq (fn (· + 100)) (sw "t" "z" .strict))) <|
  jt (sw "u" "w" .strict)

end Verif.Harvest.Ex
