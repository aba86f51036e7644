/-
Concrete cases for the reap properties: hypotheses of the theorems are met by non-trivial programs, and
counterexamples showing which side conditions are really needed (behaviour of the code that departs from
the English property).
-/
import Verif.Harvest.PropsReap

namespace Verif.Harvest.Ex

/-! ### Hypotheses are met -/

theorem demo_accepted : ∃ g, callAndReap S0 demo = .ok g := ⟨_, rfl⟩

theorem demo_regular : Regular S0 (fun _ => false) demo := by
  simp [demo, Regular, sw, ns, fn, sc, wh, cd, jt, Quiet, AllSows]

/-- Running `call_and_reap(demo)` on 3: the output, and the entries of the dictionary. -/
example : ∃ g, callAndReap S0 demo = .ok g ∧ ∃ d, run 20 g 3 = .ok (141, d) ∧
    d "x" = some (.leaf 3) ∧ d "ys" = some (.stack [.leaf 34, .leaf 24]) ∧ d "c" = some (.leaf 41) ∧
    d "z" = some (.leaf 141) ∧ d "w" = none ∧
    ∃ i, d "s" = some (.dict i) ∧ i "x" = some (.leaf 4) ∧ i "y" = none :=
  ⟨_, rfl, _, rfl, rfl, rfl, rfl, rfl, rfl, _, rfl, rfl, rfl⟩

/-- The log-based expectation on the same run (hypotheses of `reap_exact_partial`). -/
example : ∃ g, callAndReap S0 demo = .ok g ∧
    run 20 g 3 = (trace 20 demo 3).map (fun r => (r.1, expected S0 demo r.2)) := by
  obtain ⟨g, hg⟩ := demo_accepted
  exact ⟨g, hg, reap_exact_partial S0 _ demo g demo_regular hg 20 3⟩

example : OnlyMode S0 "x" .strict demo ∧ OnlyMode S0 "c" .clobber demo ∧ OnlyMode S0 "z" .strict demo := by
  simp [demo, OnlyMode, sw, ns, fn, sc, wh, cd, jt]

/-- A log for `clobber_last_partial`. -/
example : ∃ log, trace 5 (sc true [1, 2] (sw "t" "c" .clobber)) 0 = .ok (3, log) ∧ noZeroTrip S0 "c" log ∧
    executed S0 "c" log = [.leaf 2, .leaf 3] := by
  refine ⟨[.scan true [.sow "t" "c" .clobber] [[.sow "t" "c" .clobber (.leaf 3) true],
    [.sow "t" "c" .clobber (.leaf 2) true]]], rfl, ?_, rfl⟩
  simp [noZeroTrip, Ev.noZeroTrip, noZeroTripIters]

/-- A program that `strict_twice_rejected` is about. -/
example : OnlyMode S0 "x" .strict (.seq (sw "t" "x" .strict) (jt (sw "t" "x" .strict))) ∧
    ∃ ss, Path (.seq (sw "t" "x" .strict) (jt (sw "t" "x" .strict))) ss ∧
      2 ≤ (occurrences S0 "x" ss).length :=
  ⟨by simp [OnlyMode, sw, jt], [.sow "t" "x" .strict, .sow "t" "x" .strict],
    ⟨_, _, rfl, rfl, rfl⟩, by decide⟩

/-- A scan for `append_stack`. -/
example : ∃ g r, callAndReap S0 (sc true [10, 20] (sw "t" "ys" .append)) = .ok g ∧ run 5 g 0 = .ok r ∧
    r.2 "ys" = some (.stack [.leaf 30, .leaf 20]) := ⟨_, _, rfl, rfl, rfl⟩

/-- Programs with `sow_cond`, including in a loop (hypotheses of `sow_cond_last_partial`). -/
example : ∃ g r, callAndReap S0 (sc false [1, 2, 3] (swc "t" "a" 4)) = .ok g ∧ run 5 g 0 = .ok r ∧
    r.2 "a" = some (.leaf 3) := ⟨_, _, rfl, rfl, rfl⟩
example : Regular S0 (fun n => n = "a") (sc false [1, 2, 3] (swc "t" "a" 4)) := by
  simp [sc, swc, Regular]
  left
  intro n; simp [sites, declares, Site.declares]
  grind

/-- Ill-moded programs. -/
example : IllModed S0 (sc false [1] (sw "t" "x" .strict)) :=
  .inr ⟨"x", [.sow "t" "x" .strict], by simp [OnlyMode, sw], ⟨[], _, rfl, ⟨_, [], rfl, rfl, rfl⟩, rfl⟩, rfl⟩
example : IllModed S0 (wh 3 (sw "t" "x" .append)) :=
  .inr ⟨"x", .append, [.sow "t" "x" .append], rfl, by simp [OnlyMode, sw], rfl, rfl⟩
example : IllModed S0 (cd 3 (sw "t" "x" .strict) (fn id)) :=
  .inr ⟨0, 1, [.sow "t" "x" .strict], [], "x", rfl, rfl, rfl, by simp [declares]⟩

/-! ### Departures from the English property -/

/-- C04: after a first clobber of "c", a scan of length zero whose body clobbers "c" replaces the reaped
value by zeros although a sow was executed. -/
theorem clobber_zero_trip_witness : ∃ g d log,
    callAndReap S0 (.seq (sw "t" "c" .clobber) (sc false [] (sw "t" "c" .clobber))) = .ok g ∧
    run 5 g 3 = .ok (3, d) ∧ d "c" = some .zeros ∧
    trace 5 (.seq (sw "t" "c" .clobber) (sc false [] (sw "t" "c" .clobber))) 3 = .ok (3, log) ∧
    executed S0 "c" log = [.leaf 3] := ⟨_, _, _, rfl, rfl, rfl, rfl, rfl⟩

/-- C06: a clobber followed by a `sow_cond` whose predicate is false: the first value is lost (zeros). -/
theorem clobber_then_cond_false_witness : ∃ g d log,
    callAndReap S0 (.seq (sw "t" "a" .clobber) (swc "t" "a" 0)) = .ok g ∧
    run 5 g 3 = .ok (3, d) ∧ d "a" = some .zeros ∧
    trace 5 (.seq (sw "t" "a" .clobber) (swc "t" "a" 0)) 3 = .ok (3, log) ∧
    executed S0 "a" log = [.leaf 3] := ⟨_, _, _, rfl, rfl, rfl, rfl, rfl⟩

/-- C06: inside a nested scope the predicate is dropped: a value whose predicate was false is reaped. -/
theorem nest_drops_pred_witness : ∃ g d i log il ss,
    callAndReap S0 (ns "s" (swc "t" "a" 0)) = .ok g ∧
    run 5 g 3 = .ok (3, d) ∧ d "s" = some (.dict i) ∧ i "a" = some (.leaf 3) ∧
    trace 5 (ns "s" (swc "t" "a" 0)) 3 = .ok (3, log) ∧ log = [.nest "s" ss il] ∧
    executed S0 "a" il = [] := ⟨_, _, _, _, _, _, rfl, rfl, rfl, rfl, rfl, rfl, rfl⟩

/-- C06: in a scan the mode of the name that sorts last is used for all names: with an 'append' name "z",
a `sow_cond` name "a" is treated as an unconditional clobber ... its predicate stays false, so zeros are
reaped although a sow with a true predicate was executed. -/
theorem scan_leaked_mode_witness : ∃ g d log,
    callAndReap S0 (sc false [1] (.seq (swc "t" "a" 9) (sw "t" "z" .append))) = .ok g ∧
    run 5 g 3 = .ok (4, d) ∧ d "a" = some .zeros ∧
    trace 5 (sc false [1] (.seq (swc "t" "a" 9) (sw "t" "z" .append))) 3 = .ok (4, log) ∧
    executed S0 "a" log = [.leaf 4] := ⟨_, _, _, rfl, rfl, rfl, rfl, rfl⟩

/-- C06: a clobber name together with a later-sorting `sow_cond` name in one scan is an error. -/
theorem scan_pred_none_witness :
    callAndReap S0 (sc false [1] (.seq (sw "t" "a" .clobber) (swc "t" "z" 9))) = .error .predNone := rfl

/-- C02: a sow in the test of a while loop is not reaped. -/
theorem while_test_sow_ignored : ∃ g d,
    callAndReap S0 (.whileL id (.seq (sw "t" "q" .clobber) (.pure (fun a => .ok (decide (a < 5))))) (fn (· + 1))
      (fun _ k => k)) = .ok g ∧
    run 9 g 3 = .ok (5, d) ∧ d "q" = none := ⟨_, _, rfl, rfl, rfl⟩

/-- C03/C15: the branches of a conditional may use different modes for a name; the modes of the first branch
are the ones recorded, so a strict value sown by the second branch is silently overwritten. -/
theorem cond_mode_mix_witness : ∃ g d log,
    callAndReap S0 (.seq (cd 9 (sw "t" "x" .clobber) (sw "t" "x" .strict))
      (.seq (fn (· + 1)) (sw "t" "x" .clobber))) = .ok g ∧
    run 5 g 3 = .ok (4, d) ∧ d "x" = some (.leaf 4) ∧
    trace 5 (.seq (cd 9 (sw "t" "x" .clobber) (sw "t" "x" .strict))
      (.seq (fn (· + 1)) (sw "t" "x" .clobber))) 3 = .ok (4, log) ∧
    log = [.sow "t" "x" .strict (.leaf 3) true, .sow "t" "x" .clobber (.leaf 4) true] :=
  ⟨_, _, _, rfl, rfl, rfl, rfl, rfl⟩

end Verif.Harvest.Ex
