/-
Concrete cases for C13 with nested scopes.
-/
import Verif.Harvest.PropsFilter
import Verif.Harvest.WitnessPlant

namespace Verif.Harvest.Ex

/-- def f(a): a = sow(a, 'x'); a = nest(g, scope='s')(a) with g sowing 'y' and 'z'; a = nest(h, scope='u')(a) with h sowing
'z'; and a scan that appends 'ys'. -/
def filt : Prog Nat Nat Nat :=
  .seq (sw "t" "x" .strict) <|
  .seq (ns "s" (.seq (fn (· + 1)) (.seq (sw "t" "y" .strict) (.seq (fn (· + 1)) (sw "t" "z" .strict))))) <|
  .seq (ns "u" (sw "t" "z" .strict)) <|
  sc true [10, 20] (sw "t" "ys" .append)

/-- Without 'z'. -/
def noZ : Settings := { S0 with blocklist := ["z"] }

theorem filt_regular : Regular noZ.unfiltered (fun _ => false) filt := by
  simp [filt, Regular, sw, ns, fn, sc]

theorem noZ_filtered (n : String) : noZ.filtered n ↔ n = "z" := by simp [noZ, Settings.filtered, S0]

/-- C13: the hypotheses of `reap_filtered_partial` and `reap_unfiltered_path_partial`, and what is reaped: the scope "u" is gone. -/
example : ∃ g g' r r', callAndReap noZ filt = .ok g ∧ callAndReap noZ.unfiltered filt = .ok g' ∧ run 5 g 3 = .ok r ∧
    run 5 g' 3 = .ok r' ∧ leafAt r.2 ["s", "y"] = some 4 ∧ leafAt r'.2 ["s", "y"] = some 4 ∧
    leafAt r.2 ["s", "z"] = none ∧ leafAt r'.2 ["s", "z"] = some 5 ∧ leafAt r'.2 ["u", "z"] = some 5 ∧ r.2 "u" = none ∧
    (r.2 "ys").isSome ∧ r.1 = r'.1 :=
  ⟨_, _, _, _, rfl, rfl, rfl, rfl, rfl, rfl, rfl, rfl, rfl, rfl, rfl, rfl⟩
example : ∀ n ∈ ["s", "y"], ¬ noZ.filtered n := by
  intro n hn
  rw [noZ_filtered]
  rintro rfl
  simp at hn

/-- Plants for 'y' and 'z' in the scope 's'. -/
def plantYZ (y z : Nat) : Dict Nat := fun k =>
  if k = "s" then some (.dict (fun j => if j = "y" then some (.leaf y) else pl "z" z j)) else none

theorem plantYZ_plain (y z : Nat) : Plain (plantYZ y z) := by
  intro k
  simp only [plantYZ]
  split
  · refine .dict _ (fun j => ?_)
    simp only [pl]
    split
    · exact .leaf _
    · split
      · exact .leaf _
      · exact .none
  · exact .none

/-- C13: the hypotheses of `filtered_not_planted_nested_partial`: what is planted for 'z' does not matter, what is planted for 'y'
does. -/
example : AgreeOn noZ filt (plantYZ 100 7) (plantYZ 100 8) ∧ ScopesActive noZ filt ∧
    ∃ g g', plant noZ filt (plantYZ 100 7) = .ok g ∧ plant noZ filt (plantYZ 100 8) = .ok g' ∧ run 5 g 3 = .ok 131 ∧
      run 5 g' 3 = .ok 131 := by
  refine ⟨?_, by simp [filt, ScopesActive, sw, ns, fn, sc, AllSows, Settings.active, noZ, S0], _, _, rfl, rfl, rfl, rfl⟩
  refine ⟨fun _ _ => rfl, ⟨trivial, fun _ _ => rfl, trivial, fun _ h => ?_⟩, fun _ _ => rfl, by simp [sc, sw, AgreeOn, plantYZ]⟩
  exact absurd ((noZ_filtered "z").2 rfl) h

end Verif.Harvest.Ex
