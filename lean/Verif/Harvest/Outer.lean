import Verif.Harvest.LiftSpec
import Verif.Harvest.LiftComm
import Mathlib.Analysis.Calculus.Deriv.Mul
import Mathlib.Analysis.Calculus.Deriv.Inv

/-
C78.  Transforming a harvested function: `vmap(reap(f))`, `jvp(reap(f))`, `vmap(plant(f))`, `jvp(plant(f))`.  The harvest
trace is now the innermost one: it sees the sows itself and evaluates everything else in its parent trace
(`default_process_primitive`, harvest.py:399-410), whose values it stores and plants.
-/
namespace Verif.Harvest.Lift

variable {V W W' : Type}

/-- The function as the harvest trace runs it when the parent trace evaluates primitives by `op`: values are the parent's
(harvest.py:399-410; a nested scope is a call in the parent trace, 535-556 and 1202-1223).  The rules for further outer
transformations are not used. -/
def Prog.lift (op : Prim V → List W → W) : Prog V → Prog W
  | .done outs => .done outs
  | .op p ins rest => .op ⟨op p, fun _ => (op p [], none), fun _ _ => op p []⟩ ins (rest.lift op)
  | .sow tag name mode x rest => .sow tag name mode x (rest.lift op)
  | .nest scope ins body rest => .nest scope ins (body.lift op) (rest.lift op)

/-- `vmap(call_and_reap(f))`: the outputs and reaped values, each with its batch axis (harvest.py:399-410, 685-730). -/
def vmapReap (S : Settings) (P : Prog V) (env : List (V × Option Nat)) := reap S (P.lift (vmapped V).op) env
/-- `vmap(plant(f))`, the plants may be mapped too (harvest.py:399-410, 1188-1327). -/
def vmapPlant (S : Settings) (P : Prog V) (pl : Plants (V × Option Nat)) (env : List (V × Option Nat)) :=
  (plantBy (plain (V × Option Nat)) S (P.lift (vmapped V).op) env pl []).map (·.1)
/-- `jvp(call_and_reap(f))`: the outputs and reaped values with their tangents (harvest.py:399-410, 685-730). -/
def jvpReap (S : Settings) (P : Prog V) (env : List (V × V)) := reap S (P.lift (jvped V).op) env
/-- `jvp(plant(f))`: the planted values have tangents too (harvest.py:399-410, 1188-1327). -/
def jvpPlant (S : Settings) (P : Prog V) (pl : Plants (V × V)) (env : List (V × V)) :=
  (plantBy (plain (V × V)) S (P.lift (jvped V).op) env pl []).map (·.1)
/-- `plant(f)(plants, *env)` (harvest.py:1287-1327). -/
def plant (S : Settings) (P : Prog V) (pl : Plants V) (env : List V) :=
  (plantBy (plain V) S P env pl []).map (·.1)

/-! ## Changing the parent trace -/

theorem reap_lift_hom (op : Prim V → List W → W) (op' : Prim V → List W' → W') (h : W → W') (S : Settings) (P : Prog V)
    (hP : P.All fun p => ∀ ws, h (op p ws) = op' p (ws.map h)) (env : List W) (r : Reaps W) :
    reapBy (plain W') (plain W').phys S (P.lift op') (env.map h) (r.mapVals h) =
      (reapBy (plain W) (plain W).phys S (P.lift op) env r).map (fun q => (q.1.map h, q.2.mapVals h)) := by
  induction P generalizing env r with
  | done outs => simp only [Prog.lift, reapBy, gets_map]; cases gets env outs <;> rfl
  | op p ins rest ih =>
    simp only [Prog.lift, reapBy, gets_map]
    cases gets env ins with
    | error e => rfl
    | ok ws =>
      have := ih hP.2 (env ++ [op p ws]) r
      rw [List.map_append, List.map_cons, List.map_nil, hP.1 ws] at this
      exact this
  | sow tag name mode x rest ih =>
    simp only [Prog.lift, reapBy, get_map]
    cases get env x with
    | error e => rfl
    | ok w =>
      simp only [bind, Except.bind, Except.map]
      have hs := sowInto_mapVals h S r tag name mode w
      rw [show (plain W').phys (h w) = h w from rfl, show (plain W).phys w = w from rfl, hs]
      cases sowInto S r tag name mode w with
      | error e => rfl
      | ok r' =>
        have := ih hP (env ++ [w]) r'
        rw [List.map_append, List.map_cons, List.map_nil] at this
        exact this
  | nest scope ins body rest ihb ihr =>
    simp only [Prog.lift, reapBy, gets_map]
    cases gets env ins with
    | error e => rfl
    | ok ws =>
      simp only [bind, Except.bind, Except.map]
      have hb := ihb hP.1 ws []
      rw [show (Reaps.mapVals h ([] : Reaps W)) = [] from rfl] at hb
      rw [hb]
      cases reapBy (plain W) (plain W).phys S (body.lift op) ws [] with
      | error e => rfl
      | ok q =>
        simp only [Except.map]
        rw [nestInto_mapVals h S r q.2 scope]
        cases nestInto S r q.2 scope with
        | error e => rfl
        | ok r' =>
          have := ihr hP.2 (env ++ q.1) r'
          rw [List.map_append] at this
          exact this

theorem plant_lift_hom (op : Prim V → List W → W) (op' : Prim V → List W' → W') (h : W → W') (S : Settings) (P : Prog V)
    (hP : P.All fun p => ∀ ws, h (op p ws) = op' p (ws.map h)) (env : List W) (pl : Plants W) (pd : List String) :
    plantBy (plain W') S (P.lift op') (env.map h) (fun p => (pl p).map h) pd =
      (plantBy (plain W) S (P.lift op) env pl pd).map (fun q => (q.1.map h, q.2.map fun e => (e.1, h e.2))) := by
  induction P generalizing env pl pd with
  | done outs => simp only [Prog.lift, plantBy, gets_map]; cases gets env outs <;> rfl
  | op p ins rest ih =>
    simp only [Prog.lift, plantBy, gets_map]
    cases gets env ins with
    | error e => rfl
    | ok ws =>
      have := ih hP.2 (env ++ [op p ws]) pl pd
      rw [List.map_append, List.map_cons, List.map_nil, hP.1 ws] at this
      exact this
  | sow tag name mode x rest ih =>
    simp only [Prog.lift, plantBy, get_map]
    cases get env x with
    | error e => rfl
    | ok w =>
      have step : ∀ (v : W) pd, plantBy (plain W') S (rest.lift op') (env.map h ++ [h v]) (fun p => (pl p).map h) pd =
          (plantBy (plain W) S (rest.lift op) (env ++ [v]) pl pd).map
            (fun q => (q.1.map h, q.2.map fun e => (e.1, h e.2))) := by
        intro v pd
        have := ih hP (env ++ [v]) pl pd
        rw [List.map_append, List.map_cons, List.map_nil] at this
        exact this
      simp only [bind, Except.bind, Except.map]
      split
      · rfl
      · rcases S.dispatch tag name with _ | _ | _
        · exact step w pd
        · exact step w pd
        · simp only
          split
          · rfl
          · rcases hpl : pl [name] with _ | v
            · simp only [Option.map_none]
              exact step w pd
            · simp only [Option.map_some]
              have := step v (if mode.isClobber then pd else name :: pd)
              simp only [plain] at this ⊢
              rw [this]
              rcases plantBy _ S (rest.lift op) (env ++ [v]) pl (if mode.isClobber then pd else name :: pd) with e | q
              · rfl
              · rfl
  | nest scope ins body rest ihb ihr =>
    simp only [Prog.lift, plantBy, gets_map]
    cases gets env ins with
    | error e => rfl
    | ok ws =>
      simp only [bind, Except.bind, Except.map]
      rw [ihb hP.1 ws (fun p => pl (scope :: p)) []]
      rcases plantBy (plain W) S (body.lift op) ws (fun p => pl (scope :: p)) [] with e | q
      · rfl
      · simp only [Except.map]
        have := ihr hP.2 (env ++ q.1) pl pd
        rw [List.map_append] at this
        rw [this]
        rcases plantBy (plain W) S (rest.lift op) (env ++ q.1) pl pd with e | q'
        · rfl
        · simp [pure, Except.pure, Except.map, Function.comp_def]

theorem lift_run (P : Prog V) (S : Settings) (env : List V) (r : Reaps V) :
    reapBy (plain V) (plain V).phys S (P.lift fun p => p.run) env r = reapBy (plain V) (plain V).phys S P env r := by
  induction P generalizing env r with
  | done outs => rfl
  | op p ins rest ih => simp only [Prog.lift, reapBy, ih]; rfl
  | sow tag name mode x rest ih => simp only [Prog.lift, reapBy, ih]
  | nest scope ins body rest ihb ihr => simp only [Prog.lift, reapBy, ihb, ihr]

theorem lift_run_plant (P : Prog V) (S : Settings) (env : List V) (pl : Plants V) (pd : List String) :
    plantBy (plain V) S (P.lift fun p => p.run) env pl pd = plantBy (plain V) S P env pl pd := by
  induction P generalizing env pl pd with
  | done outs => rfl
  | op p ins rest ih => simp only [Prog.lift, plantBy, ih]; rfl
  | sow tag name mode x rest ih => simp only [Prog.lift, plantBy, ih]
  | nest scope ins body rest ihb ihr => simp only [Prog.lift, plantBy, ihb, ihr]

end Verif.Harvest.Lift
