/-
Concrete cases for the plant / harvest / nest / tag properties, and counterexamples showing which side
conditions are really needed.
-/
import Verif.Harvest.PropsRound
import Verif.Harvest.PropsTags
import Verif.Harvest.PropsNest
import Verif.Harvest.WitnessReap

namespace Verif.Harvest.Ex

/-- `{name: leaf v}` -/
def pl (n : String) (v : Nat) : Dict Nat := fun k => if k = n then some (.leaf v) else none

/-- Plants for `demo`: "z", the append name "ys", and "x" inside scope "s". -/
def demoPlants : Dict Nat := fun k =>
  if k = "z" then some (.leaf 7)
  else if k = "ys" then some (.stack [.leaf 100, .leaf 200])
  else if k = "s" then some (.dict (pl "x" 5))
  else none

theorem plain_pl (n : String) (v : Nat) : Plain (pl n v) := by
  intro k; unfold pl; split
  · exact .leaf _
  · exact .none

theorem demoPlants_plain : Plain demoPlants := by
  intro k
  unfold demoPlants
  split
  · exact .leaf _
  · split
    · refine .stack _ ?_ ?_
      · intro v hv; simp at hv; rcases hv with rfl | rfl <;> rfl
      · intro v hv; simp at hv; rcases hv with rfl | rfl <;> exact .leaf _
    · split
      · exact .dict _ (plain_pl "x" 5)
      · exact .none

theorem demo_scopes : ScopesActive S0 demo := by
  simp [demo, ScopesActive, sw, ns, fn, sc, wh, cd, jt, AllSows, Settings.active, S0]

/-- C07/C14: the planted demo is accepted; the reverse scan runs from index 1 to 0, the carry becomes the
planted entries 200, then 100; then "z" is planted. -/
example : ∃ g, plant S0 demo demoPlants = .ok g ∧ run 20 g 3 = .ok 7 := ⟨_, rfl, rfl⟩
example : ∃ h, harvest S0 demo demoPlants = .ok h ∧ ∃ d, run 20 h 3 = .ok (7, d) ∧
    d "x" = some (.leaf 3) ∧ d "z" = none ∧ d "ys" = none ∧ d "c" = some .zeros :=
  ⟨_, rfl, _, rfl, rfl, rfl, rfl, rfl⟩
example : ∃ h, harvest S0 demo demoPlants = .ok h ∧ ∀ fuel a, run fuel h a =
    (ptrace S0 fuel demo demoPlants a).map (fun r => (r.1, fun n =>
      if (declares S0 n (keptSites S0 demoPlants (sites demo))).isSome
      then some ((collect S0 n r.2).getD .zeros) else none)) := by
  obtain ⟨h, hh⟩ : ∃ h, harvest S0 demo demoPlants = .ok h := ⟨_, rfl⟩
  exact ⟨h, hh, fun fuel a =>
    harvest_split_partial S0 _ demo demoPlants h hh demo_scopes demoPlants_plain demo_regular fuel a⟩

/-- C08: planting nothing. -/
example : ∃ g, plant S0 demo (fun _ => none) = .ok g ∧ run 20 g 3 = run 20 demo 3 := by
  obtain ⟨g, hg⟩ : ∃ g, plant S0 demo (fun _ => none) = .ok g := ⟨_, rfl⟩
  exact ⟨g, hg, (plant_nothing S0 demo _ g hg demo_scopes Plain.none (fun _ _ => rfl) 20 3).1⟩

/-- A program without clobber for the round trip. -/
def demo2 : Prog Nat Nat Nat :=
  .seq (sw "t" "x" .strict) <|
  .seq (ns "s" (.seq (fn (· + 1)) (sw "t" "x" .strict))) <|
  .seq (sc true [10, 20] (sw "t" "ys" .append)) <|
  .seq (wh 40 (fn (· + 7))) <|
  cd 50 (sw "t" "z" .strict) (.seq (fn (· + 100)) (sw "t" "z" .strict))

theorem demo2_noClobber : NoClobber S0 demo2 := by
  simp [demo2, NoClobber, sw, ns, fn, sc, wh, cd, AllSows, Mode.isClobber]
theorem demo2_scopes : ScopesActive S0 demo2 := by
  simp [demo2, ScopesActive, sw, ns, fn, sc, wh, cd, AllSows, Settings.active, S0]
theorem demo2_regular : Regular S0 (fun _ => false) demo2 := by
  simp [demo2, Regular, sw, ns, fn, sc, wh, cd, Quiet, AllSows]

/-- C09: the hypotheses hold and the round trip works from another input too, since every random choice is
planted. -/
example : ∃ h D, callAndReap S0 demo2 = .ok h ∧ run 20 h 3 = .ok (141, D) ∧
    D "ys" = some (.stack [.leaf 34, .leaf 24]) ∧
    ∃ g, plant S0 demo2 D = .ok g ∧ run 20 g 3 = .ok 141 := ⟨_, _, rfl, rfl, rfl, _, rfl, rfl⟩

/-- C09 is false with clobber: the last value is planted at every sow of the name. -/
theorem roundtrip_clobber_witness : ∃ h D g,
    let f := Prog.seq (sw "t" "c" .clobber)
      (.sow "t" "c" .clobber (fun a => .leaf (a + 5)) (fun _ => true) (fun a _ => a))
    callAndReap S0 f = .ok h ∧ run 5 h 0 = .ok (0, D) ∧ D "c" = some (.leaf 5) ∧
    plant S0 f D = .ok g ∧ run 5 g 0 = .ok 5 ∧ run 5 f 0 = .ok 0 :=
  ⟨_, _, _, rfl, rfl, rfl, rfl, rfl, rfl⟩

/-- C07: a sow in the test of a while loop is not planted. -/
theorem while_test_not_planted_witness : ∃ g,
    plant S0 (.whileL id (.seq (sw "t" "x" .strict) (.pure (fun a => .ok (decide (a < 3))))) (fn (· + 1))
      (fun (_ : Nat) k => k)) (pl "x" 100) = .ok g ∧
    run 10 g 0 = .ok 3 := ⟨_, rfl, rfl⟩

/-- C03 for plant: the duplicate detection of `plant` is not shared with jitted calls: a name sown twice is
planted twice although `reap` rejects the program. -/
theorem plant_duplicate_witness : ∃ g,
    callAndReap S0 (.seq (sw "t" "x" .strict) (.seq (fn (· + 1)) (jt (sw "t" "x" .strict)))) =
      .error (.alreadyReaped "x") ∧
    plant S0 (.seq (sw "t" "x" .strict) (.seq (sw "t" "x" .strict) (fn (· + 1)))) (pl "x" 5) =
      .error (.alreadyPlanted "x") ∧
    plant S0 (.seq (sw "t" "x" .strict) (.seq (fn (· + 1)) (jt (sw "t" "x" .strict)))) (pl "x" 5) = .ok g ∧
    run 5 g 0 = .ok 5 := ⟨_, rfl, rfl, rfl, rfl⟩

/-- C10: a sow in the test of a while loop is never harvested: it is executed by the harvested function. -/
theorem while_test_left_witness : ∃ g r s,
    callAndReap S0 (.whileL id (.seq (sw "t" "x" .strict) (.pure (fun a => .ok (decide (a < 1))))) (fn (· + 1))
      (fun (_ : Nat) k => k)) = .ok g ∧ trace 10 g 0 = .ok (r, s) ∧
    s = [.loop [] [[]] [.sow "t" "x" .strict (.leaf 0) true, .sow "t" "x" .strict (.leaf 1) true]] :=
  ⟨_, _, _, rfl, rfl, rfl⟩

/-- C10/C11: both reaps of `demo` are accepted, in any order. -/
example : ∃ g g', callAndReap S0 demo = .ok g ∧ callAndReap { S0 with tag := "u" } g = .ok g' ∧
    ∃ d d', run 20 g' 3 = .ok ((141, d), d') ∧ d "z" = some (.leaf 141) ∧ d' "w" = some (.leaf 141) ∧
      d' "z" = none := ⟨_, _, rfl, rfl, _, _, rfl, rfl, rfl, rfl⟩

/-- C13: `plant` does not apply the lists to scope names: blocking a scope does not keep it from being
planted, although it is not reaped. -/
theorem blocked_scope_planted_witness : ∃ g h D,
    plant { S0 with blocklist := ["s"] } (ns "s" (sw "t" "x" .strict))
      (fun k => if k = "s" then some (.dict (pl "x" 5)) else none) = .ok g ∧ run 5 g 0 = .ok 5 ∧
    callAndReap { S0 with blocklist := ["s"] } (ns "s" (sw "t" "x" .strict)) = .ok h ∧
    run 5 h 0 = .ok (0, D) ∧ D "s" = none := ⟨_, _, _, rfl, rfl, rfl, rfl, rfl⟩

/-- C13: blocking a name can make `reap` reject a function that it accepts without the blocklist: the last
mode of the sorted names of a scan body changes. -/
theorem blocklist_rejects_witness :
    (∃ g, callAndReap S0 (sc false [1] (.seq (sw "t" "a" .clobber)
      (.seq (swc "t" "b" 5) (sw "t" "z" .clobber)))) = .ok g) ∧
    callAndReap { S0 with blocklist := ["z"] } (sc false [1] (.seq (sw "t" "a" .clobber)
      (.seq (swc "t" "b" 5) (sw "t" "z" .clobber)))) = .error .predNone := ⟨⟨_, rfl⟩, rfl⟩

/-- C13: hypotheses of `unfiltered_same_partial` on a program with a blocked name in a scan. -/
example : ∃ g r, callAndReap { S0 with blocklist := ["c"] }
      (.seq (sw "t" "x" .strict) (sc true [10, 20] (.seq (sw "t" "ys" .append) (sw "t" "c" .clobber)))) = .ok g ∧
    run 5 g 3 = .ok r ∧ r.2 "c" = none ∧ r.2 "ys" = some (.stack [.leaf 33, .leaf 23]) :=
  ⟨_, _, rfl, rfl, rfl, rfl⟩
example : NoNest (.seq (sw "t" "x" .strict) (sc true [10, 20] (.seq (sw "t" "ys" .append) (sw "t" "c" .clobber)))) :=
  by simp [NoNest, AllSows, sw, sc]
example : ({ S0 with blocklist := ["c"] } : Settings).filtered "c" ∧
    ¬ ({ S0 with blocklist := ["c"] } : Settings).filtered "x" := by
  simp [Settings.filtered, S0]

/-- C12: two scopes and the top level use the same name. -/
example : ∃ g d, callAndReap S0 (.seq (sw "t" "x" .strict) (.seq (nestOf "s" (.seq (fn (· + 1)) (sw "t" "x" .strict)))
      (nestOf "r" (.seq (fn (· + 1)) (sw "t" "x" .strict))))) = .ok g ∧ run 5 g 0 = .ok (2, d) ∧
    d "x" = some (.leaf 0) ∧ (∃ i, d "s" = some (.dict i) ∧ i "x" = some (.leaf 1)) ∧
    (∃ i, d "r" = some (.dict i) ∧ i "x" = some (.leaf 2)) :=
  ⟨_, _, rfl, rfl, rfl, ⟨_, rfl, rfl⟩, ⟨_, rfl, rfl⟩⟩

/-- C13/C07: with plants for a filtered name. -/
example : ∃ g, plant { S0 with blocklist := ["x"] } (.seq (sw "t" "x" .strict) (fn (· + 1))) (pl "x" 9) = .ok g ∧
    run 5 g 0 = .ok 1 := ⟨_, rfl, rfl⟩

end Verif.Harvest.Ex
