/-
C66 with control flow: harvesting a vmapped function whose sows are inside conditionals, scans and while loops.
-/
import Verif.Harvest.VmapTrace
import Verif.Harvest.WitnessReap

namespace Verif.Harvest

/-- C66 (partial): `reap(vmap(f))` raises exactly when `reap(f)` does, with the same error, and otherwise every lane of its
outputs and of its dictionary is what `reap(f)` returns on that lane.
Missing: programs that sow inside a `cond` or `while` whose predicate differs between the lanes, for which it is false
(`Ex.vmap_reap_cond_raises`, `Ex.vmap_reap_while_stale`), and `sow_cond`. -/
theorem vmap_reap_control_partial {V A B : Type} (S : Settings) (n : Nat) (f : Prog V A B) (fl : Flags f)
    (hq : QuietBatched S f fl) (hr : Regular S (fun _ => false) f) :
    (∀ e, callAndReap S (vm n f fl) = .error e ↔ callAndReap S f = .error e) ∧
    ∀ g gv, callAndReap S f = .ok g → callAndReap S (vm n f fl) = .ok gv →
      ∀ (fuel : Nat) (a : Fin (n + 1) → A) (b : Fin (n + 1) → B) (D : Dict (Fin (n + 1) → V)),
        run fuel gv a = .ok (b, D) → ∀ i, run fuel g (a i) = .ok (b i, fun k => (D k).map (·.lane i)) := by
  have hm := metaOf_vm n f fl hq hr []
  constructor
  · intro e
    simp only [callAndReap, hm]
    rcases metaOf S f [] with e' | m <;> simp
  · intro g gv hg hgv fuel a b D hrun i
    rw [reap_exact_partial S _ _ gv (Regular.vm n f fl (fun _ => rfl) hq hr) hgv] at hrun
    rw [reap_exact_partial S _ _ g hr hg]
    rcases ht : trace fuel (vm n f fl) a with e | ⟨b', L⟩ <;> rw [ht] at hrun <;> simp at hrun
    obtain ⟨rfl, rfl⟩ := hrun
    obtain ⟨l, hl, hL⟩ := trace_vm fuel n f fl hq hr a b' L ht i
    rw [hl]
    simp only [except_map_ok, Except.ok.injEq, Prod.mk.injEq, true_and]
    funext k
    simp only [expected, declares_vm n f fl hq hr k]
    by_cases hk : (declares S k (sites f)).isSome = true
    · simp only [hk, if_true, Option.map_some, lane_getD, hL k]
    · simp [hk]

end Verif.Harvest

namespace Verif.Harvest.Ex

/-- All predicates batched (`b = true`) or none. -/
def flags (b : Bool) : {A B : Type} → (p : Prog Nat A B) → Flags p
  | _, _, .pure _ => ()
  | _, _, .seq p q => (flags b p, flags b q)
  | _, _, .sow _ _ _ _ _ _ => ()
  | _, _, .nest _ _ body _ => flags b body
  | _, _, .inline _ body _ => flags b body
  | _, _, .call _ _ body _ => flags b body
  | _, _, .cond _ _ _ br _ => (b, fun i => flags b (br i))
  | _, _, .scan _ _ body _ => flags b body
  | _, _, .whileL _ test body _ => (b, flags b test, flags b body)

/-- Two lanes. -/
def two (x y : Nat) : Fin 2 → Nat := fun i => if i = 0 then x else y

/-- A quiet `while` and a quiet `cond` with batched predicates between a scan that appends, a nested scope and a clobber. -/
def vdemo : Prog Nat Nat Nat :=
  .seq (sw "t" "x" .strict) <| .seq (wh 10 (fn (· + 7))) <|
  .seq (sc true [10, 20] (.seq (sw "t" "ys" .append) (sw "t" "c" .clobber))) <|
  .seq (ns "s" (sw "t" "x" .strict)) (cd 45 (fn (· + 1)) (fn (· + 2)))

theorem vdemo_quiet : QuietBatched S0 vdemo (flags true vdemo) := by
  refine ⟨trivial, ⟨fun _ => ⟨trivial, trivial⟩, trivial, trivial⟩, ⟨trivial, ⟨trivial, trivial⟩, trivial⟩, trivial, ?_, ?_⟩
  · intro _ i
    show Quiet S0 (if i = 0 then fn (· + 1) else fn (· + 2))
    split <;> trivial
  · intro i
    show QuietBatched S0 (if i = 0 then fn (· + 1) else fn (· + 2)) _
    match i with
    | ⟨0, _⟩ => trivial
    | ⟨1, _⟩ => trivial

theorem vdemo_regular : Regular S0 (fun _ => false) vdemo := by
  simp [vdemo, Regular, sw, ns, fn, sc, wh, cd, Quiet, AllSows]

/-- The number of a leaf. -/
def leafOf : Option (Val Nat) → Option Nat
  | some (.leaf v) => some v
  | _ => none

/-- Lane 1 of the output and of the value reaped for `k` by `reap(vmap(f))` on two lanes. -/
def lane1 (f : Prog Nat Nat Nat) (x y : Nat) (k : String) : Option (Nat × Option Nat) :=
  match callAndReap S0 (vm 1 f (flags true f)) with
  | .ok g =>
    match run 4 g (two x y) with
    | .ok r => some (r.1 1, leafOf ((r.2 k).map (·.lane 1)))
    | .error _ => none
  | .error _ => none

/-- The output and the value reaped for `k` by `reap(f)`. -/
def single (f : Prog Nat Nat Nat) (x : Nat) (k : String) : Option (Nat × Option Nat) :=
  match callAndReap S0 f with
  | .ok g =>
    match run 4 g x with
    | .ok r => some (r.1, leafOf (r.2 k))
    | .error _ => none
  | .error _ => none

/-- The two lanes leave the while loop after different numbers of iterations and take different branches; lane 1 agrees with
`reap(f)`. -/
example : lane1 vdemo 0 9 "c" = some (47, some 46) ∧ single vdemo 9 "c" = some (47, some 46) := by decide +kernel

/-- Hypotheses of `vmap_reap_control_partial` for a program with all constructs and unbatched predicates. -/
example : QuietBatched S0 demo (flags false demo) ∧ Regular S0 (fun _ => false) demo := by
  refine ⟨?_, demo_regular⟩
  simp [demo, QuietBatched, sw, ns, fn, sc, wh, cd, jt, flags]

/-! ### Departures from C66 -/

/-- A conditional whose branches both sow "z" (strictly): `reap(f)` works, but when the predicate is batched `vmap` executes
both branches and `reap(vmap(f))` raises "Variable has already been reaped". -/
theorem vmap_reap_cond_raises :
    (∃ g, callAndReap S0 (cd 5 (sw "t" "z" .strict) (sw "t" "z" .strict)) = .ok g) ∧
    callAndReap S0 (vm 1 (cd 5 (sw "t" "z" .strict) (sw "t" "z" .strict)) (flags true _)) = .error (.alreadyReaped "z") :=
  ⟨⟨_, rfl⟩, rfl⟩

/-- In mode 'clobber' there is no error, but every lane gets the value of the last branch, whichever it took. -/
theorem vmap_reap_cond_stale :
    lane1 (cd 5 (sw "t" "z" .clobber) (.seq (fn (· + 100)) (sw "t" "z" .clobber))) 1 7 "z" = some (7, some 107) ∧
    single (cd 5 (sw "t" "z" .clobber) (.seq (fn (· + 100)) (sw "t" "z" .clobber))) 7 "z" = some (7, some 7) := by
  decide +kernel

/-- `while x < 10: x = sow(x + 7, 'c', clobber)` on the lanes 0 and 9: the second lane is done after one iteration (with 16), but
the value reaped for it is that of the second iteration, which only the first lane needs. -/
theorem vmap_reap_while_stale :
    lane1 (wh 10 (.seq (fn (· + 7)) (sw "t" "c" .clobber))) 0 9 "c" = some (16, some 23) ∧
    single (wh 10 (.seq (fn (· + 7)) (sw "t" "c" .clobber))) 9 "c" = some (16, some 16) := by decide +kernel

end Verif.Harvest.Ex
