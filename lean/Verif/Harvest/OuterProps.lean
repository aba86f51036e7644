import Verif.Harvest.Outer

/-
C78: `vmap` and `jvp` of a harvested function, for every function, tag, filter, input and planted value.
-/
namespace Verif.Harvest.Lift

variable {V : Type}

theorem mapVals_nil {X Y : Type} (g : X → Y) : Reaps.mapVals g ([] : Reaps X) = [] := rfl

/-! ## vmap -/

/-- C78: `vmap(reap(f))` is, in every lane, `reap(f)` of that lane: outputs, reaped values and errors, whichever of the
inputs and values are mapped and along whichever axes. -/
theorem vmap_of_reap (take : Nat → Nat → V → V) (S : Settings) (P : Prog V) (hP : GoodBatch take P)
    (env : List (V × Option Nat)) (i : Nat) :
    reap S P (env.map (lane take i)) =
      (vmapReap S P env).map (fun q => (q.1.map (lane take i), q.2.mapVals (lane take i))) := by
  have h := reap_lift_hom (vmapped V).op (fun p => p.run) (lane take i) S P (All.imp (fun p hp ws => hp i ws) P hP) env []
  rw [mapVals_nil, lift_run] at h
  exact h

/-- C78: `vmap(plant(f))` is, in every lane, `plant(f)` with the lane's slices of the planted values. -/
theorem vmap_of_plant (take : Nat → Nat → V → V) (S : Settings) (P : Prog V) (hP : GoodBatch take P)
    (pl : Plants (V × Option Nat)) (env : List (V × Option Nat)) (i : Nat) :
    plant S P (fun p => (pl p).map (lane take i)) (env.map (lane take i)) =
      (vmapPlant S P pl env).map (List.map (lane take i)) := by
  have h := plant_lift_hom (vmapped V).op (fun p => p.run) (lane take i) S P (All.imp (fun p hp ws => hp i ws) P hP) env pl []
  rw [lift_run_plant] at h
  simp only [plant, vmapPlant, h]
  cases plantBy (plain (V × Option Nat)) S (P.lift (vmapped V).op) env pl [] <;> rfl

/-! ## jvp -/

/-- Every primitive, trivially. -/
theorem Prog.all_true : ∀ P : Prog V, P.All fun _ => True
  | .done _ => trivial
  | .op _ _ rest => ⟨trivial, rest.all_true⟩
  | .sow _ _ _ _ rest => rest.all_true
  | .nest _ _ body rest => ⟨body.all_true, rest.all_true⟩

variable [NormedAddCommGroup V] [NormedSpace ℝ V]

/-- The JVP rule of the primitive is right where its operands are in the domain: along all differentiable curves of operands
it gives the derivative of the result (the contract of JAX's rules). -/
def GoodJvp (dom : Prim V → List V → Prop) (p : Prim V) : Prop :=
  ∀ (s : ℝ) (l : List ((ℝ → V) × V)), (∀ x ∈ l, HasDerivAt x.1 x.2 s) → dom p (l.map (·.1 s)) →
    HasDerivAt (fun u => p.run (l.map (·.1 u))) (p.jvp (l.map (·.1 s)) (l.map (·.2))) s

/-- A primitive on values with a flag: whether the value has been computed within the domains of the primitives. -/
def domOp (dom : Prim V → List V → Prop) (p : Prim V) (ws : List (V × Prop)) : V × Prop :=
  (p.run (ws.map (·.1)), (∀ w ∈ ws, w.2) ∧ dom p (ws.map (·.1)))

/-- A curve of values with its tangent at `s`, which is the derivative if the value there is within the domains. -/
structure Tracked (V : Type) [NormedAddCommGroup V] [NormedSpace ℝ V] (s : ℝ) where
  curve : ℝ → V
  tangent : V
  ok : Prop
  deriv : ok → HasDerivAt curve tangent s

namespace Tracked

variable {s : ℝ}

/-- Primal and tangent at `s`. -/
def pair (w : Tracked V s) : V × V := (w.curve s, w.tangent)
def flagged (w : Tracked V s) : V × Prop := (w.curve s, w.ok)

/-- An input. -/
def input (e : { e : (ℝ → V) × V // HasDerivAt e.1 e.2 s }) : Tracked V s := ⟨e.1.1, e.1.2, True, fun _ => e.2⟩

open Classical in
/-- What a primitive does to curves. -/
noncomputable def op (dom : Prim V → List V → Prop) (p : Prim V) (ws : List (Tracked V s)) : Tracked V s :=
  if h : GoodJvp dom p then
    { curve := fun u => p.run (ws.map (·.curve u))
      tangent := p.jvp (ws.map (·.curve s)) (ws.map (·.tangent))
      ok := (∀ w ∈ ws, w.ok) ∧ dom p (ws.map (·.curve s))
      deriv := by
        rintro ⟨h1, h2⟩
        have := h s (ws.map fun w => (w.curve, w.tangent)) (by
          intro x hx
          obtain ⟨w, hw, rfl⟩ := List.mem_map.1 hx
          exact w.deriv (h1 w hw)) (by simpa [Function.comp_def] using h2)
        simpa [Function.comp_def] using this }
  else
    { curve := fun u => p.run (ws.map (·.curve u))
      tangent := p.jvp (ws.map (·.curve s)) (ws.map (·.tangent))
      ok := False
      deriv := False.elim }

theorem op_curve (dom : Prim V → List V → Prop) (p : Prim V) (ws : List (Tracked V s)) (u : ℝ) :
    (op dom p ws).curve u = p.run (ws.map (·.curve u)) := by
  unfold op; split <;> rfl

theorem op_pair (dom : Prim V → List V → Prop) (p : Prim V) (ws : List (Tracked V s)) :
    (op dom p ws).pair = (jvped V).op p (ws.map pair) := by
  unfold op pair
  split <;> simp [jvped, Function.comp_def]

theorem op_flagged (dom : Prim V → List V → Prop) (p : Prim V) (hp : GoodJvp dom p) (ws : List (Tracked V s)) :
    (op dom p ws).flagged = domOp dom p (ws.map flagged) := by
  unfold op flagged
  rw [dif_pos hp]
  simp [domOp, Function.comp_def]

end Tracked

/-- C78: `jvp(reap(f))` differentiates the outputs and the reaped values.  Let the inputs move along curves with the given
tangents at `s`.  If reaping raises, it raises for the `jvp` and everywhere on the curves.  Otherwise there are curves for
the outputs and the reaped values such that reaping at any `u` returns their values at `u`, and the `jvp` returns their
values at `s` and tangents, which are their derivatives for each of them that is computed within the domains of the
primitives. -/
theorem jvp_of_reap (dom : Prim V → List V → Prop) (S : Settings) (P : Prog V) (hP : P.All (GoodJvp dom)) (s : ℝ)
    (env : List { e : (ℝ → V) × V // HasDerivAt e.1 e.2 s }) :
    (∃ e, jvpReap S P (env.map fun x => (x.1.1 s, x.1.2)) = .error e ∧ ∀ u, reap S P (env.map fun x => x.1.1 u) = .error e) ∨
    (∃ (outs : List (Tracked V s)) (rs : Reaps (Tracked V s)),
      jvpReap S P (env.map fun x => (x.1.1 s, x.1.2)) = .ok (outs.map Tracked.pair, rs.mapVals Tracked.pair) ∧
      (∀ u, reap S P (env.map fun x => x.1.1 u) = .ok (outs.map (·.curve u), rs.mapVals (·.curve u))) ∧
      reap S (P.lift (domOp dom)) (env.map fun x => (x.1.1 s, True)) =
        .ok (outs.map Tracked.flagged, rs.mapVals Tracked.flagged)) := by
  let tr : List (Tracked V s) := env.map Tracked.input
  have h1 : jvpReap S P (env.map fun x => (x.1.1 s, x.1.2)) = _ :=
    (by simp [tr, Tracked.input, Tracked.pair, Function.comp_def] :
      jvpReap S P (env.map fun x => (x.1.1 s, x.1.2)) = jvpReap S P (tr.map Tracked.pair)).trans
      (reap_lift_hom (Tracked.op dom) (jvped V).op Tracked.pair S P
        (All.imp (fun p (_ : True) ws => Tracked.op_pair dom p ws) P P.all_true) tr [])
  have h2 : ∀ u, reap S P (env.map fun x => x.1.1 u) = _ := fun u =>
    ((by simp [tr, Tracked.input, Function.comp_def, lift_run, reap] : reap S P (env.map fun x => x.1.1 u) =
      reapBy (plain V) (plain V).phys S (P.lift fun p => p.run) (tr.map (·.curve u)) []).trans
      (reap_lift_hom (Tracked.op dom) (fun p => p.run) (·.curve u) S P
        (All.imp (fun p (_ : True) ws => Tracked.op_curve dom p ws u) P P.all_true) tr []))
  have h3 : reap S (P.lift (domOp dom)) (env.map fun x => (x.1.1 s, True)) = _ :=
    (by simp [tr, Tracked.input, Tracked.flagged, Function.comp_def, reap] :
      reap S (P.lift (domOp dom)) (env.map fun x => (x.1.1 s, True)) =
        reapBy (plain (V × Prop)) (plain (V × Prop)).phys S (P.lift (domOp dom)) (tr.map Tracked.flagged) []).trans
      (reap_lift_hom (Tracked.op dom) (domOp dom) Tracked.flagged S P
        (All.imp (fun p hp ws => Tracked.op_flagged dom p hp ws) P hP) tr [])
  rcases hr : reapBy (plain (Tracked V s)) (plain (Tracked V s)).phys S (P.lift (Tracked.op dom)) tr [] with e | q
  · rw [hr] at h1
    refine .inl ⟨e, h1, fun u => ?_⟩
    have := h2 u
    rw [hr] at this
    exact this
  · rw [hr] at h1 h3
    refine .inr ⟨q.1, q.2, h1, fun u => ?_, h3⟩
    have := h2 u
    rw [hr] at this
    exact this

/-- C78: `jvp(plant(f))` differentiates the planted function, also with respect to the planted values. -/
theorem jvp_of_plant (dom : Prim V → List V → Prop) (S : Settings) (P : Prog V) (hP : P.All (GoodJvp dom)) (s : ℝ)
    (pl : Plants { e : (ℝ → V) × V // HasDerivAt e.1 e.2 s }) (env : List { e : (ℝ → V) × V // HasDerivAt e.1 e.2 s }) :
    (∃ e, jvpPlant S P (fun p => (pl p).map fun x => (x.1.1 s, x.1.2)) (env.map fun x => (x.1.1 s, x.1.2)) = .error e ∧
      ∀ u, plant S P (fun p => (pl p).map fun x => x.1.1 u) (env.map fun x => x.1.1 u) = .error e) ∨
    (∃ outs : List (Tracked V s),
      jvpPlant S P (fun p => (pl p).map fun x => (x.1.1 s, x.1.2)) (env.map fun x => (x.1.1 s, x.1.2)) =
        .ok (outs.map Tracked.pair) ∧
      (∀ u, plant S P (fun p => (pl p).map fun x => x.1.1 u) (env.map fun x => x.1.1 u) = .ok (outs.map (·.curve u))) ∧
      plant S (P.lift (domOp dom)) (fun p => (pl p).map fun x => (x.1.1 s, True)) (env.map fun x => (x.1.1 s, True)) =
        .ok (outs.map Tracked.flagged)) := by
  let tr : List (Tracked V s) := env.map Tracked.input
  let tp : Plants (Tracked V s) := fun p => (pl p).map Tracked.input
  have h1 := plant_lift_hom (Tracked.op dom) (jvped V).op Tracked.pair S P
        (All.imp (fun p (_ : True) ws => Tracked.op_pair dom p ws) P P.all_true) tr tp []
  have h2 := fun u => plant_lift_hom (Tracked.op dom) (fun p => p.run) (·.curve u) S P
        (All.imp (fun p (_ : True) ws => Tracked.op_curve dom p ws u) P P.all_true) tr tp []
  have h3 := plant_lift_hom (Tracked.op dom) (domOp dom) Tracked.flagged S P
        (All.imp (fun p hp ws => Tracked.op_flagged dom p hp ws) P hP) tr tp []
  simp only [tr, tp, List.map_map, Option.map_map, Function.comp_def, Tracked.input, Tracked.pair, Tracked.flagged,
    lift_run_plant] at h1 h2 h3
  simp only [jvpPlant, plant]
  rcases hr : plantBy (plain (Tracked V s)) S (P.lift (Tracked.op dom)) tr tp [] with e | q
  · refine .inl ⟨e, ?_, fun u => ?_⟩
    · rw [h1]; exact congrArg _ (congrArg _ hr)
    · rw [h2 u]; exact congrArg _ (congrArg _ hr)
  · refine .inr ⟨q.1, ?_, fun u => ?_, ?_⟩
    · rw [h1]; exact congrArg (Except.map _) (congrArg (Except.map _) hr)
    · rw [h2 u]; exact congrArg (Except.map _) (congrArg (Except.map _) hr)
    · rw [h3]; exact congrArg (Except.map _) (congrArg (Except.map _) hr)

/-- C78: when the rules of all primitives are right everywhere, all tangents returned by `jvp(reap(f))` are the derivatives
of what `reap(f)` returns. -/
theorem jvp_of_reap_smooth (S : Settings) (P : Prog V) (hP : P.All (GoodJvp fun _ _ => True)) (s : ℝ)
    (env : List { e : (ℝ → V) × V // HasDerivAt e.1 e.2 s }) (q)
    (hq : jvpReap S P (env.map fun x => (x.1.1 s, x.1.2)) = .ok q) :
    ∃ (outs : List { e : (ℝ → V) × V // HasDerivAt e.1 e.2 s }) (rs : Reaps { e : (ℝ → V) × V // HasDerivAt e.1 e.2 s }),
      q = (outs.map fun x => (x.1.1 s, x.1.2), rs.mapVals fun x => (x.1.1 s, x.1.2)) ∧
      ∀ u, reap S P (env.map fun x => x.1.1 u) = .ok (outs.map fun x => x.1.1 u, rs.mapVals fun x => x.1.1 u) := by
  -- curves of differentiable values
  let op : Prim V → List { e : (ℝ → V) × V // HasDerivAt e.1 e.2 s } → { e : (ℝ → V) × V // HasDerivAt e.1 e.2 s } :=
    fun p ws => open Classical in
      if h : GoodJvp (fun _ _ => True) p then
        ⟨(fun u => p.run (ws.map fun x => x.1.1 u), p.jvp (ws.map fun x => x.1.1 s) (ws.map fun x => x.1.2)), by
          have := h s (ws.map Subtype.val) (by
            intro x hx
            obtain ⟨w, -, rfl⟩ := List.mem_map.1 hx
            exact w.2) trivial
          simpa [Function.comp_def] using this⟩
      else ⟨(fun _ => 0, 0), hasDerivAt_const s 0⟩
  have hpair := reap_lift_hom op (jvped V).op (fun x => (x.1.1 s, x.1.2)) S P
    (All.imp (fun p hp ws => by simp only [op, dif_pos hp]; simp [jvped, Function.comp_def]) P hP) env []
  have hval := fun u => reap_lift_hom op (fun p => p.run) (fun x => x.1.1 u) S P
    (All.imp (fun p hp ws => by simp only [op, dif_pos hp]) P hP) env []
  rcases hr : reapBy (plain _) (plain _).phys S (P.lift op) env [] with e | r
  · rw [hr] at hpair
    have : jvpReap S P (env.map fun x => (x.1.1 s, x.1.2)) = .error e := hpair
    rw [this] at hq
    cases hq
  · rw [hr] at hpair
    have h1 : jvpReap S P (env.map fun x => (x.1.1 s, x.1.2)) = .ok _ := hpair
    rw [h1] at hq
    refine ⟨r.1, r.2, (Except.ok.inj hq).symm, fun u => ?_⟩
    have := hval u
    rw [hr, mapVals_nil, lift_run] at this
    exact this

/-! ## Cases -/

namespace Ex

/-- Multiplication of reals with its product rule. -/
noncomputable def mulR : Prim ℝ := ⟨fun xs => xs.getD 0 0 * xs.getD 1 0, fun _ => (0, none),
  fun xs ts => ts.getD 0 0 * xs.getD 1 0 + xs.getD 0 0 * ts.getD 1 0⟩

/-- The reciprocal with its rule, right away from 0. -/
noncomputable def invR : Prim ℝ := ⟨fun xs => (xs.getD 0 1)⁻¹, fun _ => (0, none),
  fun xs ts => -ts.getD 0 0 / (xs.getD 0 1) ^ 2⟩

theorem getD_deriv (s : ℝ) (l : List ((ℝ → ℝ) × ℝ)) (hl : ∀ x ∈ l, HasDerivAt x.1 x.2 s) (i : Nat) (d : ℝ) :
    HasDerivAt (fun u => (l.map (·.1 u)).getD i d) ((l.map (·.2)).getD i 0) s := by
  simp only [List.getD_eq_getElem?_getD, List.getElem?_map]
  rcases h : l[i]? with _ | x
  · simpa using hasDerivAt_const s d
  · simpa using hl x (List.mem_of_getElem? h)

theorem mulR_good (dom : Prim ℝ → List ℝ → Prop) : GoodJvp dom mulR := by
  intro s l hl _
  exact (getD_deriv s l hl 0 0).mul (getD_deriv s l hl 1 0)

theorem invR_good (dom : Prim ℝ → List ℝ → Prop) (hd : ∀ xs, dom invR xs → xs.getD 0 1 ≠ 0) : GoodJvp dom invR := by
  intro s l hl h
  exact (getD_deriv s l hl 0 1).fun_inv (hd _ h)

/-- `def f(x): y = sow(x * x, name='y'); return 1 / (y * x)`, inside a scope `g`. -/
noncomputable def cube : Prog ℝ :=
  .nest "g" [0] (.op mulR [0, 0] (.sow "t" "y" .strict 1 (.op mulR [2, 0] (.done [3])))) (.op invR [1] (.done [2]))

/-- The domain: no division by zero. -/
def dom0 (_ : Prim ℝ) (xs : List ℝ) : Prop := xs.getD 0 1 ≠ 0

theorem cube_good : cube.All (GoodJvp dom0) :=
  ⟨⟨mulR_good _, mulR_good _, trivial⟩, invR_good _ (fun _ h => h), trivial⟩

/-- The hypotheses are met, and what is returned at 2 with tangent 1: the output 1/8 with derivative -3/16, and 4 with
derivative 4 for the reaped value. -/
example : jvpReap all cube [(2, 1)] = .ok ([(1 / 8, -3 / 16)], [("g", .strict, [(["y"], ((4 : ℝ), (4 : ℝ)))])]) := by
  have : jvpReap all cube [((2 : ℝ), (1 : ℝ))] = .ok ([((2 * 2 * 2 : ℝ)⁻¹, -((1 * 2 + 2 * 1) * 2 + 2 * 2 * 1) / (2 * 2 * 2) ^ 2)],
      [("g", .strict, [(["y"], ((2 * 2 : ℝ), (1 * 2 + 2 * 1 : ℝ)))])]) := rfl
  rw [this]
  norm_num

example (s : ℝ) (env : List { e : (ℝ → ℝ) × ℝ // HasDerivAt e.1 e.2 s }) := jvp_of_reap dom0 all cube cube_good s env

/-- `lambda x: sow(x, name='y') * x` on the reals. -/
noncomputable def squareR : Prog ℝ := .sow "t" "y" .strict 0 (.op mulR [1, 0] (.done [2]))

/-- C78: planting 3 and differentiating gives the derivative 3 of `3 * x` (planting into the `jvp` gives 8, C67); the
derivative with respect to the planted value is `x`. -/
theorem jvp_of_plant_square :
    jvpPlant all squareR (fun p => if p = ["y"] then some (3, 0) else none) [(5, 1)] = .ok [((15 : ℝ), (3 : ℝ))] ∧
    jvpPlant all squareR (fun p => if p = ["y"] then some (3, 1) else none) [(5, 0)] = .ok [((15 : ℝ), (5 : ℝ))] := by
  constructor
  · have : jvpPlant all squareR (fun p => if p = ["y"] then some ((3 : ℝ), (0 : ℝ)) else none) [(5, 1)] =
        .ok [((3 * 5 : ℝ), (0 * 5 + 3 * 1 : ℝ))] := rfl
    rw [this]; norm_num
  · have : jvpPlant all squareR (fun p => if p = ["y"] then some ((3 : ℝ), (1 : ℝ)) else none) [(5, 0)] =
        .ok [((3 * 5 : ℝ), (1 * 5 + 3 * 0 : ℝ))] := rfl
    rw [this]; norm_num

/-- Under `vmap`, mapped along axis 1 or not mapped at all: no condition on the inputs (compare C66). -/
example (x y : Verif.LogProb.Batched.Arr Nat) (i : Nat) : reap all demo [takeArr 1 i x, y] =
    (vmapReap all demo [(x, some 1), (y, none)]).map (fun q => (q.1.map (lane takeArr i), q.2.mapVals (lane takeArr i))) :=
  vmap_of_reap takeArr all demo ⟨addOne_good, ⟨addOne_good, trivial⟩, trivial⟩ [(x, some 1), (y, none)] i

end Ex

end Verif.Harvest.Lift
