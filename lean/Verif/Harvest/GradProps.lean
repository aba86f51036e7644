import Verif.Harvest.Grad

/-
C85: reverse-mode differentiation of harvested functions, and harvesting of reverse-mode differentiation, for every function,
tag, filter, input, cotangent and planted value.
-/
namespace Verif.Harvest.Lift

/-! ## Changing the rules -/

section Hom

variable {V W W' : Type}

theorem runBy_hom (L : Rules V W) (L' : Rules V W') (h : W → W') (P : Prog V) (hP : Hom L L' h P) (env : List W) :
    runBy L' P (env.map h) = (runBy L P env).map (List.map h) := by
  obtain ⟨hop, hsow⟩ := hP
  induction P generalizing env with
  | done outs => simp only [runBy, gets_map]
  | op p ins rest ih =>
    simp only [runBy, gets_map]
    cases gets env ins with
    | error e => rfl
    | ok ws =>
      have := ih (env ++ [L.op p ws]) hop.2
      rw [List.map_append, List.map_cons, List.map_nil, hop.1 ws] at this
      exact this
  | sow tag name mode x rest ih =>
    simp only [runBy, get_map]
    cases get env x with
    | error e => rfl
    | ok w =>
      have := ih (env ++ [L.back w (L.phys w)]) hop
      rw [List.map_append, List.map_cons, List.map_nil, hsow w] at this
      exact this
  | nest scope ins body rest ihb ihr =>
    simp only [runBy, gets_map]
    cases gets env ins with
    | error e => rfl
    | ok ws =>
      simp only [bind, Except.bind, Except.map]
      rw [ihb ws hop.1]
      rcases runBy L body ws with e | o
      · rfl
      · have := ihr (env ++ o) hop.2
        rw [List.map_append] at this
        exact this

theorem plantBy_map (L : Rules V W) (L' : Rules V W') (h : W → W') (S : Settings) (P : Prog V) (hP : Hom L L' h P)
    (hback : ∀ w v, h (L.back w v) = L'.back (h w) v) (env : List W) (pl : Plants V) (pd : List String) :
    plantBy L' S P (env.map h) pl pd =
      (plantBy L S P env pl pd).map (fun q => (q.1.map h, q.2.map fun e => (e.1, h e.2))) := by
  obtain ⟨hop, hsow⟩ := hP
  induction P generalizing env pl pd with
  | done outs => simp only [plantBy, gets_map]; cases gets env outs <;> rfl
  | op p ins rest ih =>
    simp only [plantBy, gets_map]
    cases gets env ins with
    | error e => rfl
    | ok ws =>
      have := ih (env ++ [L.op p ws]) pl pd hop.2
      rw [List.map_append, List.map_cons, List.map_nil, hop.1 ws] at this
      exact this
  | sow tag name mode x rest ih =>
    simp only [plantBy, get_map]
    cases get env x with
    | error e => rfl
    | ok w =>
      have step : ∀ (v : W) (v' : W') pd, h v = v' → plantBy L' S rest (env.map h ++ [v']) pl pd =
          (plantBy L S rest (env ++ [v]) pl pd).map (fun q => (q.1.map h, q.2.map fun e => (e.1, h e.2))) := by
        rintro v _ pd rfl
        have := ih (env ++ [v]) pl pd hop
        rw [List.map_append, List.map_cons, List.map_nil] at this
        exact this
      simp only [bind, Except.bind, Except.map]
      split
      · rfl
      · rcases S.dispatch tag name with _ | _ | _
        · exact step _ _ pd (hsow w)
        · exact step _ _ pd (hsow w)
        · simp only
          split
          · rfl
          · rcases hpl : pl [name] with _ | v
            · exact step _ _ pd (hsow w)
            · simp only
              rw [step _ _ (if mode.isClobber then pd else name :: pd) (hback w v)]
              rcases plantBy L S rest (env ++ [L.back w v]) pl (if mode.isClobber then pd else name :: pd) with e | q <;> rfl
  | nest scope ins body rest ihb ihr =>
    simp only [plantBy, gets_map]
    cases gets env ins with
    | error e => rfl
    | ok ws =>
      simp only [bind, Except.bind, Except.map]
      rw [ihb ws (fun p => pl (scope :: p)) [] hop.1]
      rcases plantBy L S body ws (fun p => pl (scope :: p)) [] with e | q
      · rfl
      · simp only [Except.map]
        have := ihr (env ++ q.1) pl pd hop.2
        rw [List.map_append] at this
        rw [this]
        rcases plantBy L S rest (env ++ q.1) pl pd with e | q'
        · rfl
        · simp [pure, Except.pure, Except.map, Function.comp_def]

end Hom

section Primal

variable {V : Type} [AddCommMonoid V] {n : Nat} (tr : Prim V → List V → V → List V)

theorem vjp_hom (P : Prog V) : Hom (vjped tr n) (plain V) Prod.fst P :=
  ⟨All.imp (fun _ (_ : True) _ => rfl) P P.all_true, fun _ => rfl⟩

theorem inputs_fst (x : Fin n → V) : (inputs x).map Prod.fst = List.ofFn x := by
  simp [inputs, List.map_ofFn, Function.comp_def]

/-- C85: reaping a `vjp` returns the outputs and reaped values (and errors) of reaping the function, and the gradients of the
`vjp` without reaping. -/
theorem reap_vjp (S : Settings) (P : Prog V) (x : Fin n → V) :
    reap S P (List.ofFn x) = (reapVjp tr S P x).map (fun q => (q.1.map Prod.fst, q.2)) ∧
      ∀ q, reapVjp tr S P x = .ok q → runBy (vjped tr n) P (inputs x) = .ok q.1 := by
  constructor
  · have := reapBy_hom (vjped tr n) (plain V) Prod.fst (plain V).phys S P (vjp_hom tr P) (inputs x) []
    rw [inputs_fst] at this
    exact this
  · exact fun q hq => reapBy_outputs _ _ S P _ [] q hq

/-- C85: planting into a `vjp` returns the outputs (and errors) of planting into the function. -/
theorem plant_vjp_primal (S : Settings) (P : Prog V) (pl : Plants V) (x : Fin n → V) :
    plant S P pl (List.ofFn x) = (plantVjp tr S P pl x).map (List.map Prod.fst) := by
  have := plantBy_map (vjped tr n) (plain V) Prod.fst S P (vjp_hom tr P) (fun _ _ => rfl) (inputs x) pl []
  rw [inputs_fst] at this
  simp only [plant, plantVjp, this]
  cases plantBy (vjped tr n) S P (inputs x) pl [] <;> rfl

/-- C85: differentiating a reaped function does not change its outputs, reaped values and errors. -/
theorem vjp_of_reap_primal (S : Settings) (P : Prog V) (x : Fin n → V) :
    reap S P (List.ofFn x) = (vjpReap tr S P x).map (fun q => (q.1.map Prod.fst, q.2.mapVals Prod.fst)) := by
  have := reap_lift_hom (vjped tr n).op (fun p => p.run) Prod.fst S P
    (All.imp (fun _ (_ : True) _ => rfl) P P.all_true) (inputs x) []
  rw [mapVals_nil, lift_run, inputs_fst] at this
  exact this

/-- C85: differentiating a planted function does not change its outputs and errors. -/
theorem vjp_of_plant_primal (S : Settings) (P : Prog V) (pl : List String → Option (Fin n)) (x : Fin n → V) :
    plant S P (fun p => (pl p).map x) (List.ofFn x) = (vjpPlant tr S P pl x).map (List.map Prod.fst) := by
  have := plant_lift_hom (vjped tr n).op (fun p => p.run) Prod.fst S P
    (All.imp (fun _ (_ : True) _ => rfl) P P.all_true) (inputs x)
    (fun p => (pl p).map fun i => (x i, fun ct => Pi.single i ct)) []
  simp only [lift_run_plant, inputs_fst, Option.map_map, Function.comp_def] at this
  simp only [plant, vjpPlant]
  refine (congrArg _ this).trans ?_
  cases plantBy (plain _) S (P.lift (vjped tr n).op) (inputs x)
    (fun p => (pl p).map fun i => (x i, fun ct => Pi.single i ct)) [] <;> rfl

end Primal

section Gradient

variable {V : Type} [NormedAddCommGroup V] [InnerProductSpace ℝ V] {n : Nat}

/-- All values that a reaped function returns: outputs and reaped values. -/
def everything {X : Type} (q : List X × Reaps X) : List X := q.1 ++ (leavesOf q.2).map (·.2)

theorem everything_map {X Y : Type} (g : X → Y) (q : List X × Reaps X) :
    everything (q.1.map g, q.2.mapVals g) = (everything q).map g := by
  simp [everything, leavesOf_mapVals, Function.comp_def]

/-- The domains of the primitives, for a function without harvesting. -/
def domRules (dom : Prim V → List V → Prop) : Rules V (V × Prop) := ⟨domOp dom, Prod.fst, fun w v => (v, w.2)⟩

/-- The straight-through function: a planted value keeps moving with the value that it replaces. -/
def straight (s : ℝ) : Rules V (ℝ → V) :=
  ⟨fun p ws u => p.run (ws.map (· u)), fun w => w s, fun w v u => v + (w u - w s)⟩

namespace Dual

variable {s : ℝ} {t : Fin n → V} (tr : Prim V → List V → V → List V) (dom : Prim V → List V → Prop)

/-- Replacing a value keeps tangent and pullback. -/
def back (w : Dual V s t) (v : V) : Dual V s t where
  curve u := v + (w.curve u - w.curve s)
  tangent := w.tangent
  pull := w.pull
  ok := w.ok
  deriv h := ((w.deriv h).sub_const _).const_add v
  adj := w.adj

/-- The rules on duals. -/
noncomputable def rules : Rules V (Dual V s t) := ⟨op tr dom, fun w => w.curve s, back⟩

theorem back_self (w : Dual V s t) : w.back (w.curve s) = w := by
  cases w
  simp [back]

theorem hom_pair (P : Prog V) : Hom (rules tr dom (s := s) (t := t)) (vjped tr n) pair P :=
  ⟨All.imp (fun p (_ : True) ws => op_pair tr dom p ws) P P.all_true, fun w => by simp [rules, back_self, vjped, pair]⟩

theorem hom_curve (P : Prog V) (u : ℝ) : Hom (rules tr dom (s := s) (t := t)) (plain V) (·.curve u) P :=
  ⟨All.imp (fun p (_ : True) ws => op_curve tr dom p ws u) P P.all_true, fun w => by simp [rules, back_self, plain]⟩

theorem hom_straight (P : Prog V) : Hom (rules tr dom (s := s) (t := t)) (straight s) (·.curve) P :=
  ⟨All.imp (fun p (_ : True) ws => by
    funext u
    simp [rules, op_curve, straight, Function.comp_def]) P P.all_true, fun w => rfl⟩

theorem hom_flagged (P : Prog V) (hP : P.All (GoodVjp tr dom)) :
    Hom (rules tr dom (s := s) (t := t)) (domRules dom) flagged P :=
  ⟨All.imp (fun p hp ws => op_flagged tr dom p hp ws) P hP, fun w => by simp [rules, back_self, domRules, flagged]⟩

end Dual

variable (tr : Prim V → List V → V → List V) (dom : Prim V → List V → Prop)
variable {s : ℝ} (x : Fin n → ℝ → V) {t : Fin n → V}

theorem duals_pair (hx : ∀ i, HasDerivAt (x i) (t i) s) :
    (List.ofFn (Dual.input x hx)).map Dual.pair = inputs fun i => x i s := by
  simp [inputs, List.map_ofFn, Function.comp_def, Dual.pair, Dual.input]

theorem duals_curve (hx : ∀ i, HasDerivAt (x i) (t i) s) (u : ℝ) :
    (List.ofFn (Dual.input x hx)).map (·.curve u) = List.ofFn fun i => x i u := by
  simp [List.map_ofFn, Function.comp_def, Dual.input]

theorem duals_flagged (hx : ∀ i, HasDerivAt (x i) (t i) s) :
    (List.ofFn (Dual.input x hx)).map Dual.flagged = List.ofFn fun i => (x i s, True) := by
  simp [List.map_ofFn, Function.comp_def, Dual.flagged, Dual.input]

/-- C85: sowing is transparent to gradients.  Let the inputs of a function with sows and nested scopes move along curves `x`
with derivatives `t` at `s`.  If all outputs are computed within the domains of the primitives, then for all cotangents the
pairing with the outputs moves at the rate that the cotangents of the inputs returned by `vjp` say. -/
theorem vjp_of_sow (P : Prog V) (hP : P.All (GoodVjp tr dom)) (hx : ∀ i, HasDerivAt (x i) (t i) s) (q)
    (hq : runBy (vjped tr n) P (inputs fun i => x i s) = .ok q)
    (hd : ∃ d, runBy (domRules dom) P (List.ofFn fun i => (x i s, True)) = .ok d ∧ ∀ w ∈ d, w.2)
    (cts : List V) (hl : cts.length = q.length) :
    ∃ val : ℝ → List V, (∀ u, runBy (plain V) P (List.ofFn fun i => x i u) = .ok (val u)) ∧ val s = q.map Prod.fst ∧
      HasDerivAt (fun u => dot cts (val u)) (∑ i, inner ℝ (pullback q cts i) (t i)) s := by
  obtain ⟨d, hd, hok⟩ := hd
  have h1 := runBy_hom _ _ _ P (Dual.hom_pair tr dom P (s := s) (t := t)) (List.ofFn (Dual.input x hx))
  have h2 := fun u => runBy_hom _ _ _ P (Dual.hom_curve tr dom P u (s := s) (t := t)) (List.ofFn (Dual.input x hx))
  have h3 := runBy_hom _ _ _ P (Dual.hom_flagged tr dom P hP (s := s) (t := t)) (List.ofFn (Dual.input x hx))
  rw [duals_pair, hq] at h1
  simp only [duals_curve] at h2
  rw [duals_flagged, hd] at h3
  rcases hr : runBy (Dual.rules tr dom) P (List.ofFn (Dual.input x hx)) with e | ws
  · rw [hr] at h1; cases h1
  · rw [hr] at h1 h3
    simp only [hr] at h2
    obtain rfl := Except.ok.inj h1
    obtain rfl := Except.ok.inj h3
    refine ⟨fun u => ws.map fun w : Dual V s t => w.curve u, fun u => h2 u, by simp [Function.comp_def, Dual.pair], ?_⟩
    exact Dual.dot_deriv ws (fun w hw => hok _ (List.mem_map_of_mem hw)) cts (by simpa using hl)

/-- C85: `vjp(reap(f))` gives the gradients of outputs and reaped values. -/
theorem vjp_of_reap (S : Settings) (P : Prog V) (hP : P.All (GoodVjp tr dom)) (hx : ∀ i, HasDerivAt (x i) (t i) s) (q)
    (hq : vjpReap tr S P (fun i => x i s) = .ok q)
    (hd : ∃ d, reap S (P.lift (domOp dom)) (List.ofFn fun i => (x i s, True)) = .ok d ∧ ∀ w ∈ everything d, w.2)
    (cts : List V) (hl : cts.length = (everything q).length) :
    ∃ val : ℝ → List V × Reaps V, (∀ u, reap S P (List.ofFn fun i => x i u) = .ok (val u)) ∧
      val s = (q.1.map Prod.fst, q.2.mapVals Prod.fst) ∧
      HasDerivAt (fun u => dot cts (everything (val u))) (∑ i, inner ℝ (pullback (everything q) cts i) (t i)) s := by
  obtain ⟨d, hd, hok⟩ := hd
  have h1 := reap_lift_hom (Dual.op tr dom) (vjped tr n).op Dual.pair S P
    (All.imp (fun p (_ : True) ws => Dual.op_pair tr dom p ws) P P.all_true) (List.ofFn (Dual.input x hx)) []
  have h2 := fun u => reap_lift_hom (Dual.op tr dom) (fun p => p.run) (·.curve u) S P
    (All.imp (fun p (_ : True) ws => Dual.op_curve tr dom p ws u) P P.all_true) (List.ofFn (Dual.input x hx)) []
  have h3 := reap_lift_hom (Dual.op tr dom) (domOp dom) Dual.flagged S P
    (All.imp (fun p hp ws => Dual.op_flagged tr dom p hp ws) P hP) (List.ofFn (Dual.input x hx)) []
  simp only [mapVals_nil, lift_run, duals_curve] at h2
  rw [mapVals_nil, duals_pair] at h1
  rw [mapVals_nil, duals_flagged] at h3
  have h1 := hq.symm.trans h1
  have h3 := hd.symm.trans h3
  rcases hr : reapBy (plain _) (plain _).phys S (P.lift (Dual.op tr dom)) (List.ofFn (Dual.input x hx)) [] with e | ws
  · rw [hr] at h1; cases h1
  · rw [hr] at h1 h3
    simp only [hr] at h2
    obtain rfl := Except.ok.inj h1
    obtain rfl := Except.ok.inj h3
    refine ⟨fun u => (ws.1.map fun w : Dual V s t => w.curve u, ws.2.mapVals fun w : Dual V s t => w.curve u),
      fun u => h2 u, ?_, ?_⟩
    · simp [Function.comp_def, Dual.pair, Reaps.mapVals]
    · simp only [everything_map] at hok hl ⊢
      exact Dual.dot_deriv _ (fun w hw => hok _ (List.mem_map_of_mem hw)) cts (by simpa using hl)

/-- C85: `vjp(plant(f))` gives the gradients of the planted function, with respect to planted values too. -/
theorem vjp_of_plant (S : Settings) (P : Prog V) (hP : P.All (GoodVjp tr dom)) (pl : List String → Option (Fin n))
    (hx : ∀ i, HasDerivAt (x i) (t i) s) (q) (hq : vjpPlant tr S P pl (fun i => x i s) = .ok q)
    (hd : ∃ d, plant S (P.lift (domOp dom)) (fun p => (pl p).map fun i => (x i s, True))
      (List.ofFn fun i => (x i s, True)) = .ok d ∧ ∀ w ∈ d, w.2)
    (cts : List V) (hl : cts.length = q.length) :
    ∃ val : ℝ → List V, (∀ u, plant S P (fun p => (pl p).map fun i => x i u) (List.ofFn fun i => x i u) = .ok (val u)) ∧
      val s = q.map Prod.fst ∧
      HasDerivAt (fun u => dot cts (val u)) (∑ i, inner ℝ (pullback q cts i) (t i)) s := by
  obtain ⟨d, hd, hok⟩ := hd
  let tp : Plants (Dual V s t) := fun p => (pl p).map (Dual.input x hx)
  have h1 := plant_lift_hom (Dual.op tr dom) (vjped tr n).op Dual.pair S P
    (All.imp (fun p (_ : True) ws => Dual.op_pair tr dom p ws) P P.all_true) (List.ofFn (Dual.input x hx)) tp []
  have h2 := fun u => plant_lift_hom (Dual.op tr dom) (fun p => p.run) (·.curve u) S P
    (All.imp (fun p (_ : True) ws => Dual.op_curve tr dom p ws u) P P.all_true) (List.ofFn (Dual.input x hx)) tp []
  have h3 := plant_lift_hom (Dual.op tr dom) (domOp dom) Dual.flagged S P
    (All.imp (fun p hp ws => Dual.op_flagged tr dom p hp ws) P hP) (List.ofFn (Dual.input x hx)) tp []
  simp only [duals_pair, duals_curve, duals_flagged, lift_run_plant, tp, Option.map_map, Function.comp_def] at h1 h2 h3
  simp only [vjpPlant, plant] at hq hd ⊢
  have h1 := hq.symm.trans (congrArg _ h1)
  have h3 := hd.symm.trans (congrArg _ h3)
  rcases hr : plantBy (plain _) S (P.lift (Dual.op tr dom)) (List.ofFn (Dual.input x hx)) tp [] with e | ws
  · simp only [tp] at hr
    rw [hr] at h1; cases h1
  · simp only [tp] at hr
    rw [hr] at h1 h3
    obtain rfl := Except.ok.inj h1
    obtain rfl := Except.ok.inj h3
    refine ⟨fun u => ws.1.map (·.curve u), fun u => (congrArg (Except.map (·.1)) (h2 u)).trans (by rw [hr]; rfl), by simp [Function.comp_def, Dual.pair], ?_⟩
    exact Dual.dot_deriv ws.1 (fun w hw => hok _ (List.mem_map_of_mem hw)) cts (by simpa using hl)

/-- C85: what planting into a `vjp` does return as gradients: those of the straight-through function, in which a planted
value keeps moving with the value that it replaces. -/
theorem plant_vjp_straight_through_partial (S : Settings) (P : Prog V) (hP : P.All (GoodVjp tr dom)) (pl : Plants V)
    (hx : ∀ i, HasDerivAt (x i) (t i) s) (q) (hq : plantVjp tr S P pl (fun i => x i s) = .ok q)
    (hd : ∃ d, plantBy (domRules dom) S P (List.ofFn fun i => (x i s, True)) pl [] = .ok d ∧ ∀ w ∈ d.1, w.2)
    (cts : List V) (hl : cts.length = q.length) :
    ∃ val : List (ℝ → V), (plantBy (straight s) S P (List.ofFn x) pl []).map (·.1) = .ok val ∧
      val.map (· s) = q.map Prod.fst ∧
      HasDerivAt (fun u => dot cts (val.map (· u))) (∑ i, inner ℝ (pullback q cts i) (t i)) s := by
  obtain ⟨d, hd, hok⟩ := hd
  have h1 := plantBy_map _ _ _ S P (Dual.hom_pair tr dom P (s := s) (t := t))
    (fun w v => by simp [Dual.rules, Dual.back, Dual.pair, vjped]) (List.ofFn (Dual.input x hx)) pl []
  have h2 := plantBy_map _ _ _ S P (Dual.hom_straight tr dom P (s := s) (t := t))
    (fun w v => rfl) (List.ofFn (Dual.input x hx)) pl []
  have h3 := plantBy_map _ _ _ S P (Dual.hom_flagged tr dom P hP (s := s) (t := t))
    (fun w v => by simp [Dual.rules, Dual.back, Dual.flagged, domRules]) (List.ofFn (Dual.input x hx)) pl []
  rw [duals_pair] at h1
  rw [show (List.ofFn (Dual.input x hx)).map (·.curve) = List.ofFn x by simp [List.map_ofFn, Function.comp_def, Dual.input]] at h2
  rw [duals_flagged] at h3
  have h1 := hq.symm.trans (congrArg (Except.map fun q : List (V × (V → Fin n → V)) × List (List String × V × (V → Fin n → V)) => q.1) h1)
  have h3 := hd.symm.trans h3
  rcases hr : plantBy (Dual.rules tr dom) S P (List.ofFn (Dual.input x hx)) pl [] with e | ws
  · rw [hr] at h1; cases h1
  · rw [hr] at h1 h2 h3
    obtain rfl := Except.ok.inj h1
    obtain rfl := Except.ok.inj h3
    refine ⟨ws.1.map (·.curve), by rw [h2]; rfl, by simp [Function.comp_def, Dual.pair], ?_⟩
    have := Dual.dot_deriv ws.1 (fun w hw => hok _ (List.mem_map_of_mem hw)) cts (by simpa using hl)
    simpa [Function.comp_def] using this

end Gradient

/-! ## Cases -/

/-- The transposed product rule. -/
def trMul {R : Type} [Zero R] [Mul R] {P : Type} (_ : P) (xs : List R) (ct : R) : List R :=
  [ct * xs.getD 1 0, ct * xs.getD 0 0]

/-- C85 (negation): planting does not stop gradients.  `plant(f)({'y': 3}, x) = 3 * x` for all `x`, with gradient 3, but
planting into `vjp(f)` at 5 gives the gradient 8. -/
theorem plant_vjp_gradient_wrong :
    (∀ x, plant all square three [x] = runBy (plain Int) planted [x]) ∧
    (runBy (vjped trMul 1) planted (inputs fun _ => 5)).map (fun q => (q.map Prod.fst, pullback q [1] 0)) = .ok ([15], 3) ∧
    (plantVjp trMul all square three (n := 1) fun _ => 5).map (fun q => (q.map Prod.fst, pullback q [1] 0)) = .ok ([15], 8) :=
  ⟨fun _ => rfl, rfl, rfl⟩

namespace Ex

/-- Products are of two operands. -/
def dom2 (_ : Prim ℝ) (xs : List ℝ) : Prop := xs.length = 2

theorem mulR_goodVjp : GoodVjp trMul dom2 mulR := by
  refine ⟨mulR_good _, fun xs ts ct hl hd => ?_⟩
  match xs, ts, hl, hd with
  | [a, b], [c, d], _, _ =>
    refine ⟨rfl, ?_⟩
    simp [trMul, mulR, dot, inner]
    ring

/-- `def f(x, z): y = sow(x * z, name='y'); return y * x`, inside a scope `g`. -/
noncomputable def prods : Prog ℝ :=
  .nest "g" [0, 1] (.op mulR [0, 1] (.sow "t" "y" .strict 2 (.op mulR [3, 0] (.done [4])))) (.done [2])

theorem prods_good : prods.All (GoodVjp trMul dom2) := ⟨⟨mulR_goodVjp, mulR_goodVjp, trivial⟩, trivial⟩

def pt : Fin 2 → ℝ := ![2, 5]

/-- The hypotheses are met, and the gradient of `x * z * x + 10 * x * z` at (2, 5): 20 + 50 and 4 + 20. -/
example : ∃ q, vjpReap trMul all prods pt = .ok q ∧ (everything q).map Prod.fst = [20, 10] ∧
    pullback (everything q) [1, 10] = ![70, 24] ∧
    ∃ d, reap all (prods.lift (domOp dom2)) (List.ofFn fun i => (pt i, True)) = .ok d ∧ ∀ w ∈ everything d, w.2 := by
  refine ⟨_, rfl, ?_, ?_, ⟨_, rfl, ?_⟩⟩
  · simp [plain, everything, leavesOf, vjped, mulR, pt, inputs]
    norm_num
  · funext i
    fin_cases i <;> simp [plain, pullback, everything, leavesOf, vjped, trMul, mulR, pt, inputs] <;> norm_num
  · simp [plain, everything, leavesOf, domOp, dom2]

/-- A planted value among the inputs. -/
def asY (p : List String) : Option (Fin 2) := if p = ["g", "y"] then some 1 else none

/-- The gradient of `y * x` at (2, 5) with the second input planted. -/
example : ∃ q, vjpPlant trMul all prods asY pt = .ok q ∧ q.map Prod.fst = [10] ∧ pullback q [1] = ![5, 2] ∧
    ∃ d, plant all (prods.lift (domOp dom2)) (fun p => (asY p).map fun i => (pt i, True))
      (List.ofFn fun i => (pt i, True)) = .ok d ∧ ∀ w ∈ d, w.2 := by
  refine ⟨_, rfl, ?_, ?_, ⟨_, rfl, ?_⟩⟩
  · simp [plain, vjped, mulR, pt, inputs]
    norm_num
  · funext i
    fin_cases i <;> simp [plain, pullback, vjped, trMul, mulR, pt, inputs]
  · simp [plain, domOp, dom2]

/-- Planting 7 into the `vjp`: output 14, gradients 7 + 10 and 4 of the straight-through function. -/
example : ∃ q, plantVjp trMul all prods (fun p => if p = ["g", "y"] then some 7 else none) pt = .ok q ∧
    q.map Prod.fst = [14] ∧ pullback q [1] = ![17, 4] ∧
    ∃ d, plantBy (domRules dom2) all prods (List.ofFn fun i => (pt i, True))
      (fun p => if p = ["g", "y"] then some 7 else none) [] = .ok d ∧ ∀ w ∈ d.1, w.2 := by
  refine ⟨_, rfl, ?_, ?_, ⟨_, rfl, ?_⟩⟩
  · simp [plain, vjped, mulR, pt, inputs]
    norm_num
  · funext i
    fin_cases i <;> simp [plain, pullback, vjped, trMul, mulR, pt, inputs] <;> norm_num
  · simp [plain, domRules, domOp, dom2]

/-- The gradient without harvesting. -/
example : ∃ q, runBy (vjped trMul 2) prods (inputs pt) = .ok q ∧ pullback q [1] = ![20, 4] ∧
    ∃ d, runBy (domRules dom2) prods (List.ofFn fun i => (pt i, True)) = .ok d ∧ ∀ w ∈ d, w.2 := by
  refine ⟨_, rfl, ?_, ⟨_, rfl, ?_⟩⟩
  · funext i
    fin_cases i <;> simp [plain, pullback, vjped, trMul, mulR, pt, inputs] <;> norm_num
  · simp [plain, domRules, domOp, dom2]

end Ex

end Verif.Harvest.Lift
