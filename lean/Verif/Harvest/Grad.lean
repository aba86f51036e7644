import Verif.Harvest.OuterProps
import Mathlib.Analysis.InnerProductSpace.Calculus
import Mathlib.Analysis.Calculus.Deriv.Add

/-
C85.  Harvesting and reverse-mode differentiation: `reap(vjp(f))`, `plant(vjp(f))`, `vjp(reap(f))`, `vjp(plant(f))`.

Simplification: JAX computes a vector-Jacobian product by a forward pass that records the linear operations on tangents
(the JVP rules) and a backward pass that transposes them in reverse order, adding up cotangents.  Here every value carries
the linear map from its cotangent to the cotangents of the inputs; the sums are the same, only their order is not modelled.
The transposed `nest` calls of the backward pass (harvest.py:329-333) hold no sows, because `_sow_jvp` sows only primals, so
nothing is reaped from them (`if reap_tracers`, harvest.py:562) and nothing planted.
-/
namespace Verif.Harvest.Lift

section Model

variable {V : Type} [AddCommMonoid V] {n : Nat}

/-- `jax.vjp` with `n` inputs: `tr p xs ct` is the transposed JVP rule of `p` at the operands `xs`, the cotangents of the
operands.  For `sow_p`, `_sow_jvp` sows the primals and passes the tangents on, so the cotangent of the result is the
cotangent of the operand; `_sow_transpose` does the same when `sow_p` itself is transposed (harvest.py:207-220). -/
def vjped (tr : Prim V → List V → V → List V) (n : Nat) : Rules V (V × (V → Fin n → V)) :=
  ⟨fun p ws => (p.run (ws.map Prod.fst),
      fun ct => (List.zipWith (fun w c => w.2 c) ws (tr p (ws.map Prod.fst) ct)).sum),
    Prod.fst, fun w v => (v, w.2)⟩

/-- The inputs of a `vjp`: the cotangent of input `i` goes to position `i` (`jax.vjp`; sow at harvest.py:215-220). -/
def inputs (x : Fin n → V) : List (V × (V → Fin n → V)) := List.ofFn fun i => (x i, fun ct => Pi.single i ct)

/-- The cotangents of the inputs, for cotangents `cts` of the outputs (the function that `jax.vjp` returns;
sow at harvest.py:215-220). -/
def pullback (outs : List (V × (V → Fin n → V))) (cts : List V) : Fin n → V :=
  (List.zipWith (fun w c => w.2 c) outs cts).sum

/-- `call_and_reap(lambda x: vjp(f, x))`: outputs with their pullbacks, and the reaped values (harvest.py:685-730). -/
def reapVjp (tr : Prim V → List V → V → List V) (S : Settings) (P : Prog V) (x : Fin n → V) :=
  reapBy (vjped tr n) (vjped tr n).phys S P (inputs x) []

/-- `plant(lambda x: vjp(f, x))` (harvest.py:1188-1327). -/
def plantVjp (tr : Prim V → List V → V → List V) (S : Settings) (P : Prog V) (pl : Plants V) (x : Fin n → V) :=
  (plantBy (vjped tr n) S P (inputs x) pl []).map (·.1)

/-- `vjp(call_and_reap(f))`: outputs and reaped values, each with its pullback (harvest.py:399-410, 685-730). -/
def vjpReap (tr : Prim V → List V → V → List V) (S : Settings) (P : Prog V) (x : Fin n → V) :=
  reap S (P.lift (vjped tr n).op) (inputs x)

/-- `vjp(plant(f))`, where the planted values are among the inputs: `pl` gives the input for each name
(harvest.py:399-410, 1188-1327). -/
def vjpPlant (tr : Prim V → List V → V → List V) (S : Settings) (P : Prog V) (pl : List String → Option (Fin n))
    (x : Fin n → V) :=
  (plantBy (plain _) S (P.lift (vjped tr n).op) (inputs x)
    (fun p => (pl p).map fun i => (x i, fun ct => Pi.single i ct)) []).map (·.1)

end Model

section Spec

variable {V : Type} [NormedAddCommGroup V] [InnerProductSpace ℝ V] {n : Nat}

/-- The pairing of cotangents with values. -/
noncomputable def dot (cts vals : List V) : ℝ := (List.zipWith (fun c v => inner ℝ c v) cts vals).sum

/-- The rules of the primitive are right where its operands are in the domain: its JVP rule gives derivatives, and its
transposed rule is the adjoint of the JVP rule (the contract of JAX's rules). -/
def GoodVjp (tr : Prim V → List V → V → List V) (dom : Prim V → List V → Prop) (p : Prim V) : Prop :=
  GoodJvp dom p ∧ ∀ xs ts ct, ts.length = xs.length → dom p xs →
    (tr p xs ct).length = xs.length ∧ inner ℝ ct (p.jvp xs ts) = dot (tr p xs ct) ts

/-- A value that moves along a curve when the inputs do: with its tangent at `s` and its pullback, which are right if the
value at `s` is computed within the domains of the primitives. -/
structure Dual (V : Type) [NormedAddCommGroup V] [InnerProductSpace ℝ V] (s : ℝ) {n : Nat} (t : Fin n → V) where
  curve : ℝ → V
  tangent : V
  pull : V → Fin n → V
  ok : Prop
  deriv : ok → HasDerivAt curve tangent s
  adj : ok → ∀ ct, inner ℝ ct tangent = ∑ i, inner ℝ (pull ct i) (t i)

namespace Dual

variable {s : ℝ} {t : Fin n → V}

/-- The value at `s` with its pullback. -/
def pair (w : Dual V s t) : V × (V → Fin n → V) := (w.curve s, w.pull)
def flagged (w : Dual V s t) : V × Prop := (w.curve s, w.ok)

/-- An input. -/
def input (x : Fin n → ℝ → V) (hx : ∀ i, HasDerivAt (x i) (t i) s) (i : Fin n) : Dual V s t where
  curve := x i
  tangent := t i
  pull ct := Pi.single i ct
  ok := True
  deriv _ := hx i
  adj _ ct := by
    rw [Finset.sum_eq_single i]
    · simp
    · intro j _ hj
      simp [Pi.single_eq_of_ne hj]
    · simp

theorem sum_pull (ws : List (Dual V s t)) (h : ∀ w ∈ ws, w.ok) (cs : List V) (hl : cs.length = ws.length) :
    dot cs (ws.map (·.tangent))
      = ∑ i, inner ℝ ((List.zipWith (fun (w : V × (V → Fin n → V)) c => w.2 c) (ws.map pair) cs).sum i) (t i) := by
  induction ws generalizing cs with
  | nil =>
    cases cs with
    | nil => simp [dot]
    | cons c cs => simp at hl
  | cons w ws ih =>
    cases cs with
    | nil => simp at hl
    | cons c cs =>
      have := ih (fun v hv => h v (List.mem_cons_of_mem _ hv)) cs (by simpa using hl)
      simp only [dot, List.map_cons, List.zipWith_cons_cons, List.sum_cons, Pi.add_apply, inner_add_left,
        Finset.sum_add_distrib] at this ⊢
      rw [this, w.adj (h w List.mem_cons_self) c]
      rfl

open Classical in
/-- What a primitive does to such values. -/
noncomputable def op (tr : Prim V → List V → V → List V) (dom : Prim V → List V → Prop) (p : Prim V)
    (ws : List (Dual V s t)) : Dual V s t :=
  if h : GoodVjp tr dom p then
    { curve := fun u => p.run (ws.map (·.curve u))
      tangent := p.jvp (ws.map (·.curve s)) (ws.map (·.tangent))
      pull := ((vjped tr n).op p (ws.map pair)).2
      ok := (∀ w ∈ ws, w.ok) ∧ dom p (ws.map (·.curve s))
      deriv := by
        rintro ⟨h1, h2⟩
        have := h.1 s (ws.map fun w => (w.curve, w.tangent)) (by
          intro x hx
          obtain ⟨w, hw, rfl⟩ := List.mem_map.1 hx
          exact w.deriv (h1 w hw)) (by simpa [Function.comp_def] using h2)
        simpa [Function.comp_def] using this
      adj := by
        rintro ⟨h1, h2⟩ ct
        have h3 := h.2 (ws.map (·.curve s)) (ws.map (·.tangent)) ct (by simp) h2
        rw [h3.2, sum_pull ws h1 _ (by simpa using h3.1)]
        simp only [vjped, List.map_map, Function.comp_def, pair] }
  else
    { curve := fun u => p.run (ws.map (·.curve u))
      tangent := 0
      pull := ((vjped tr n).op p (ws.map pair)).2
      ok := False
      deriv := False.elim
      adj := False.elim }

variable (tr : Prim V → List V → V → List V)

theorem op_curve (dom : Prim V → List V → Prop) (p : Prim V) (ws : List (Dual V s t)) (u : ℝ) :
    (op tr dom p ws).curve u = p.run (ws.map (·.curve u)) := by
  unfold op; split <;> rfl

theorem op_pair (dom : Prim V → List V → Prop) (p : Prim V) (ws : List (Dual V s t)) :
    (op tr dom p ws).pair = (vjped tr n).op p (ws.map pair) := by
  unfold op
  split <;> simp [pair, vjped, Function.comp_def]

theorem op_flagged (dom : Prim V → List V → Prop) (p : Prim V) (hp : GoodVjp tr dom p) (ws : List (Dual V s t)) :
    (op tr dom p ws).flagged = domOp dom p (ws.map flagged) := by
  unfold op flagged
  rw [dif_pos hp]
  simp [domOp, Function.comp_def]

/-- The pairing with the values of a list moves at the rate that the pullbacks give. -/
theorem dot_deriv (ws : List (Dual V s t)) (h : ∀ w ∈ ws, w.ok) (cts : List V) (hl : cts.length = ws.length) :
    HasDerivAt (fun u => dot cts (ws.map (·.curve u)))
      (∑ i, inner ℝ (pullback (ws.map pair) cts i) (t i)) s := by
  have hs := sum_pull ws h cts hl
  unfold pullback
  rw [← hs]
  clear hs
  induction ws generalizing cts with
  | nil => simpa [dot] using hasDerivAt_const s (0 : ℝ)
  | cons w ws ih =>
    cases cts with
    | nil => simp at hl
    | cons c cts =>
      have h1 := ih (fun v hv => h v (List.mem_cons_of_mem _ hv)) cts (by simpa using hl)
      have h2 : HasDerivAt (fun u => inner ℝ c (w.curve u)) (inner ℝ c w.tangent) s := by
        have := (hasDerivAt_const s c).inner ℝ (w.deriv (h w List.mem_cons_self))
        simpa using this
      simp only [dot, List.map_cons, List.zipWith_cons_cons, List.sum_cons] at h1 ⊢
      exact HasDerivAt.fun_add h2 h1

end Dual

end Spec

end Verif.Harvest.Lift
