/-
C93: `jvp`, `vmap` and abstract evaluation of functions that are wrapped in primitives (oryx/core/primitive.py:116-153,
217-235).
-/
import Mathlib.Analysis.Calculus.Deriv.Add
import Mathlib.Analysis.Calculus.Deriv.Mul

namespace Verif.Util.Trans

/-! ### Model -/

/-- A traced program over primitives `P` (the jaxprs of primitive.py:200-212): `prim` binds a primitive and appends its
results to the variables; `wrap` is the equation of a function that `initial_style_bind` wrapped: its jaxpr, with `nconsts`
constants and `nargs` arguments, and its operands, constants first. -/
inductive Code (P : Type) where
  | ret (outs : List Nat)
  | prim (p : P) (ins : List Nat) (rest : Code P)
  | wrap (nconsts nargs : Nat) (body : Code P) (consts ins : List Nat) (rest : Code P)

/-- Read variables (`eval_jaxpr`, JAX; primitive.py:225-227). -/
def readAll {D : Type} (env : List D) : List Nat → Option (List D)
  | [] => some []
  | i :: is => (env[i]?).bind fun d => (readAll env is).map (d :: ·)

/-- How a transformation works: what it makes of an array, what it does with a primitive, and what it does with the results
of a whole function (JAX). -/
structure Interp (P D : Type) where
  rule : P → List D → Option (List D)
  fin : D → D

/-- `fun_impl` (primitive.py:225-227) is run by every rule of `FlatPrimitive`: by `_jvp` under `ad.jvp` (132-138), by
`_batch` under `batch_subtrace` (142-147, 109-113), by `_abstract` under `abstract_eval_fun` (124-129), by `impl` itself.
The operands are split into constants and arguments (226); `eval_jaxpr` raises when their numbers are wrong.  What
the transformation does with the results of the function is `fin`. -/
def run {P D : Type} (I : Interp P D) : Code P → List D → Option (List D)
  | .ret outs, env => readAll env outs
  | .prim p ins rest, env =>
    (readAll env ins).bind fun xs => (I.rule p xs).bind fun ys => run I rest (env ++ ys)
  | .wrap nconsts nargs body consts ins rest, env =>
    (readAll env (consts ++ ins)).bind fun xs =>
      let cs := xs.take nconsts
      let as := xs.drop nconsts
      if cs.length = nconsts ∧ as.length = nargs then
        (run I body (cs ++ as)).bind fun ys => run I rest (env ++ ys.map I.fin)
      else none

/-- Evaluation (primitive.py:225-229): nothing is done with the results. -/
def evalI {P V : Type} (impl : P → List V → Option (List V)) : Interp P V := ⟨impl, id⟩

/-- `ad.jvp` (JAX) with the rules `jvp` of primitives: a tangent may be a symbolic zero (`none`); the results of
`ad.jvp(fun)` are instantiated (primitive.py:133-136). -/
def jvpI {P E : Type} [Zero E] (jvp : P → List (E × Option E) → Option (List (E × Option E))) : Interp P (E × Option E) :=
  ⟨jvp, fun d => (d.1, some (d.2.getD 0))⟩

/-- An array under `vmap`: not mapped, or one value for each of `B` lanes (`out_dims`, primitive.py:109-113, 143-147).
Simplification: the position of the mapped axis is not modelled. -/
inductive Bat (B : Nat) (V : Type) where
  | all (v : V)
  | lanes (f : Fin B → V)

/-- `batch_subtrace` (JAX) with the rules `batch` of primitives: the results keep their dimensions
(primitive.py:109-113, 143-147). -/
def vmapI {P V : Type} {B : Nat} (batch : P → List (Bat B V) → Option (List (Bat B V))) : Interp P (Bat B V) :=
  ⟨batch, id⟩

/-- `abstract_eval_fun` (JAX; primitive.py:124-129) with the abstract evaluation of primitives. -/
def absI {P A : Type} (abs : P → List A → Option (List A)) : Interp P A := ⟨abs, id⟩

/-! ### Specification -/

/-- The program in which the wrapped functions are called instead: the functions are not wrapped in anything. -/
def direct {P V : Type} (impl : P → List V → Option (List V)) : Code P → List V → Option (List V)
  | .ret outs, env => readAll env outs
  | .prim p ins rest, env =>
    (readAll env ins).bind fun xs => (impl p xs).bind fun ys => direct impl rest (env ++ ys)
  | .wrap nconsts nargs body consts ins rest, env =>
    (readAll env consts).bind fun cs => (readAll env ins).bind fun as =>
      if cs.length = nconsts ∧ as.length = nargs then
        (direct impl body (cs ++ as)).bind fun ys => direct impl rest (env ++ ys)
      else none

/-- The equations give the operands of a wrapped function its constants and its arguments, as `initial_style_bind` does
(primitive.py:203-210). -/
def WellBound {P : Type} : Code P → Prop
  | .ret _ => True
  | .prim _ _ rest => WellBound rest
  | .wrap nconsts _ body consts _ rest => consts.length = nconsts ∧ WellBound body ∧ WellBound rest

/-- A curve of arrays and a value with tangent: the value at 0 and the derivative at 0 (a symbolic zero is zero). -/
def Deriv0 {E : Type} [NormedAddCommGroup E] [NormedSpace ℝ E] (c : ℝ → E) (d : E × Option E) : Prop :=
  c 0 = d.1 ∧ HasDerivAt c (d.2.getD 0) 0

/-- The value in a lane. -/
def Bat.lane {B : Nat} {V : Type} (b : Fin B) : Bat B V → V
  | .all v => v
  | .lanes f => f b

/-! ### Theorems -/

theorem readAll_append {D : Type} (env : List D) (is js : List Nat) :
    readAll env (is ++ js) = (readAll env is).bind fun xs => (readAll env js).map (xs ++ ·) := by
  induction is with
  | nil =>
    simp only [List.nil_append, readAll, Option.bind_some]
    rcases readAll env js with _ | ys <;> rfl
  | cons i is ih =>
    simp only [List.cons_append, readAll, ih]
    rcases env[i]? with _ | d
    · rfl
    · rcases readAll env is with _ | xs
      · rfl
      · rcases readAll env js with _ | ys <;> rfl

theorem readAll_length {D : Type} (env : List D) (is : List Nat) : ∀ xs, readAll env is = some xs → xs.length = is.length := by
  induction is with
  | nil => intro xs h; simp only [readAll, Option.some.injEq] at h; subst h; rfl
  | cons i is ih =>
    intro xs h
    simp only [readAll] at h
    rcases h1 : env[i]? with _ | d <;> rw [h1] at h
    · exact absurd h (by simp)
    · rcases h2 : readAll env is with _ | ys <;> rw [h2] at h
      · exact absurd h (by simp)
      · simp only [Option.bind_some, Option.map_some, Option.some.injEq] at h
        subst h
        simp [ih ys h2]

/-- C93.  Evaluating a program with wrapped functions is evaluating it with the functions called, at any depth. -/
theorem C93_eval {P V : Type} (impl : P → List V → Option (List V)) (code : Code P) (hb : WellBound code) :
    ∀ env, run (evalI impl) code env = direct impl code env := by
  induction code with
  | ret outs => intro env; rfl
  | prim p ins rest ih =>
    intro env
    simp only [run, direct]
    rcases readAll env ins with _ | xs
    · rfl
    · simp only [Option.bind_some, evalI]
      rcases impl p xs with _ | ys
      · rfl
      · exact ih hb _
  | wrap nc na body consts ins rest ihb ihr =>
    intro env
    obtain ⟨hc, hbb, hbr⟩ := hb
    simp only [run, direct, readAll_append]
    rcases h1 : readAll env consts with _ | cs
    · rfl
    · rcases h2 : readAll env ins with _ | as
      · rfl
      · have hl := readAll_length env consts cs h1
        simp only [Option.bind_some, Option.map_some]
        rw [List.take_left' (by omega), List.drop_left' (by omega)]
        split
        · rw [ihb hbb]
          rcases direct impl body (cs ++ as) with _ | ys
          · rfl
          · simp only [Option.bind_some, evalI, List.map_id_fun, id]
            exact ihr hbr _
        · rfl

theorem readAll_rel {T V D : Type} (R : (T → V) → D → Prop) (env : List (T → V)) (denv : List D)
    (h : List.Forall₂ R env denv) (is : List Nat) : ∀ ds, readAll denv is = some ds →
    ∃ cs, (∀ t, readAll (env.map (· t)) is = some (cs.map (· t))) ∧ List.Forall₂ R cs ds := by
  induction is with
  | nil =>
    intro ds hd
    simp only [readAll, Option.some.injEq] at hd
    subst hd
    exact ⟨[], fun t => rfl, .nil⟩
  | cons i is ih =>
    intro ds hd
    simp only [readAll] at hd
    rcases h1 : denv[i]? with _ | d <;> rw [h1] at hd
    · exact absurd hd (by simp)
    · rcases h2 : readAll denv is with _ | ds' <;> rw [h2] at hd
      · exact absurd hd (by simp)
      · simp only [Option.bind_some, Option.map_some, Option.some.injEq] at hd
        subst hd
        obtain ⟨cs, hcs, hr⟩ := ih ds' h2
        obtain ⟨hi, hdi⟩ := List.getElem?_eq_some_iff.1 h1
        have hi' : i < env.length := by rw [h.length_eq]; exact hi
        refine ⟨env[i] :: cs, fun t => ?_, .cons ?_ hr⟩
        · simp only [readAll, hcs t, List.getElem?_map, List.getElem?_eq_getElem hi', Option.map_some, Option.bind_some,
            List.map_cons]
        · have := h.get hi' hi
          simp only [List.get_eq_getElem] at this
          rw [hdi] at this
          exact this

/-- Values that depend on a parameter `t` and what a transformation `J` knows about them (`R`): if the rules of primitives
and what is done with the results of functions preserve `R`, so does every program.  `I` is how the program is run for every
`t`: it may be a transformation itself. -/
theorem C93_transformation {P T V D : Type} (I : Interp P V) (J : Interp P D) (R : (T → V) → D → Prop)
    (hrule : ∀ p cs ds outs, List.Forall₂ R cs ds → J.rule p ds = some outs →
      ∃ ocs, (∀ t, I.rule p (cs.map (· t)) = some (ocs.map (· t))) ∧ List.Forall₂ R ocs outs)
    (hfin : ∀ c d, R c d → R (fun t => I.fin (c t)) (J.fin d)) (code : Code P) :
    ∀ env denv outs, List.Forall₂ R env denv → run J code denv = some outs →
      ∃ ocs, (∀ t, run I code (env.map (· t)) = some (ocs.map (· t))) ∧ List.Forall₂ R ocs outs := by
  induction code with
  | ret os =>
    intro env denv outs h ho
    exact readAll_rel R env denv h os outs ho
  | prim p ins rest ih =>
    intro env denv outs h ho
    simp only [run] at ho
    rcases h1 : readAll denv ins with _ | ds <;> rw [h1] at ho
    · exact absurd ho (by simp)
    · simp only [Option.bind_some] at ho
      rcases h2 : J.rule p ds with _ | es <;> rw [h2] at ho
      · exact absurd ho (by simp)
      · simp only [Option.bind_some] at ho
        obtain ⟨cs, hcs, hr⟩ := readAll_rel R env denv h ins ds h1
        obtain ⟨ecs, hecs, her⟩ := hrule p cs ds es hr h2
        obtain ⟨ocs, hocs, hor⟩ := ih (env ++ ecs) (denv ++ es) outs (List.rel_append h her) ho
        refine ⟨ocs, fun t => ?_, hor⟩
        have := hocs t
        rw [List.map_append] at this
        simp only [run, hcs t, Option.bind_some, hecs t, this]
  | wrap nc na body consts ins rest ihb ihr =>
    intro env denv outs h ho
    simp only [run] at ho
    rcases h1 : readAll denv (consts ++ ins) with _ | ds <;> rw [h1] at ho
    · exact absurd ho (by simp)
    · simp only [Option.bind_some] at ho
      split at ho
      · rename_i hlen
        rcases h2 : run J body (ds.take nc ++ ds.drop nc) with _ | es <;> rw [h2] at ho
        · exact absurd ho (by simp)
        · simp only [Option.bind_some] at ho
          obtain ⟨cs, hcs, hr⟩ := readAll_rel R env denv h (consts ++ ins) ds h1
          have hl := hr.length_eq
          obtain ⟨ecs, hecs, her⟩ := ihb (cs.take nc ++ cs.drop nc) (ds.take nc ++ ds.drop nc) es
            (by rw [List.take_append_drop, List.take_append_drop]; exact hr) h2
          have her' : List.Forall₂ R (ecs.map fun c t => I.fin (c t)) (es.map J.fin) := by
            rw [List.forall₂_map_left_iff, List.forall₂_map_right_iff]
            exact her.imp hfin
          obtain ⟨ocs, hocs, hor⟩ := ihr (env ++ ecs.map fun c t => I.fin (c t)) (denv ++ es.map J.fin) outs
            (List.rel_append h her') ho
          refine ⟨ocs, fun t => ?_, hor⟩
          have h3 := hocs t
          have h4 := hecs t
          rw [List.map_append] at h3 h4
          simp only [run, hcs t, Option.bind_some, ← List.map_take, ← List.map_drop, h4]
          rw [if_pos]
          · simp only [List.map_map] at h3 ⊢
            exact h3
          · simp only [List.length_take, List.length_drop, List.length_map] at hlen ⊢
            rw [hl]
            exact hlen
      · exact absurd ho (by simp)

/-- C93.  `jvp`, with right rules for primitives, computes through wrapped functions at any depth the derivatives of the
program in which the functions are called. -/
theorem C93_jvp {P E : Type} [NormedAddCommGroup E] [NormedSpace ℝ E] (impl : P → List E → Option (List E))
    (jvp : P → List (E × Option E) → Option (List (E × Option E)))
    (hrule : ∀ p cs ds outs, List.Forall₂ Deriv0 cs ds → jvp p ds = some outs →
      ∃ ocs, (∀ t, impl p (cs.map (· t)) = some (ocs.map (· t))) ∧ List.Forall₂ Deriv0 ocs outs)
    (code : Code P) (hb : WellBound code) (cs : List (ℝ → E)) (ds outs : List (E × Option E))
    (h : List.Forall₂ Deriv0 cs ds) (ho : run (jvpI jvp) code ds = some outs) :
    ∃ ocs, (∀ t, direct impl code (cs.map (· t)) = some (ocs.map (· t))) ∧ List.Forall₂ Deriv0 ocs outs := by
  obtain ⟨ocs, h1, h2⟩ := C93_transformation (evalI impl) (jvpI jvp) Deriv0 hrule (fun c d hd => hd) code cs ds outs h ho
  exact ⟨ocs, fun t => by rw [← C93_eval impl code hb]; exact h1 t, h2⟩

/-- C93.  `vmap`, with right rules for primitives, computes through wrapped functions at any depth in every lane what the
program computes in which the functions are called. -/
theorem C93_vmap {P V : Type} {B : Nat} (impl : P → List V → Option (List V))
    (batch : P → List (Bat B V) → Option (List (Bat B V)))
    (hrule : ∀ p ds outs, batch p ds = some outs →
      ∀ b, impl p (ds.map (Bat.lane b)) = some (outs.map (Bat.lane b)))
    (code : Code P) (hb : WellBound code) (ds outs : List (Bat B V)) (ho : run (vmapI batch) code ds = some outs) :
    ∀ b, direct impl code (ds.map (Bat.lane b)) = some (outs.map (Bat.lane b)) := by
  have key : ∀ (cs : List (Fin B → V)) (es : List (Bat B V)),
      List.Forall₂ (fun c d => ∀ b, c b = Bat.lane b d) cs es → ∀ b, cs.map (· b) = es.map (Bat.lane b) := by
    intro cs es h b
    induction h with
    | nil => rfl
    | cons h1 _ ih => simp only [List.map_cons, ih, h1 b]
  have key2 : ∀ es : List (Bat B V),
      List.Forall₂ (fun (c : Fin B → V) d => ∀ b, c b = Bat.lane b d) (es.map fun d b => Bat.lane b d) es := by
    intro es
    induction es with
    | nil => exact .nil
    | cons e es ih => exact .cons (fun b => rfl) ih
  obtain ⟨ocs, h1, h2⟩ := C93_transformation (evalI impl) (vmapI batch)
    (fun (c : Fin B → V) d => ∀ b, c b = Bat.lane b d)
    (by
      intro p cs es outs' hr hp
      refine ⟨outs'.map fun d b => Bat.lane b d, fun b => ?_, key2 _⟩
      rw [key cs es hr b]
      change impl p _ = _
      rw [hrule p es outs' hp b, List.map_map]
      rfl)
    (fun c d hd => hd) code (ds.map fun d b => Bat.lane b d) ds outs (key2 ds) ho
  intro b
  rw [← C93_eval impl code hb, ← key _ _ (key2 ds) b, h1 b, key _ _ h2 b]

/-- C93.  A transformation of which every lane `t` can be read off (`g t`) computes in every lane what `I`, which may be a
transformation itself, computes. -/
theorem C93_lanes {P T V D : Type} (I : Interp P V) (J : Interp P D) (g : T → D → V)
    (hrule : ∀ p ds outs, J.rule p ds = some outs → ∀ t, I.rule p (ds.map (g t)) = some (outs.map (g t)))
    (hfin : ∀ t d, g t (J.fin d) = I.fin (g t d)) (code : Code P) (ds outs : List D) (ho : run J code ds = some outs) :
    ∀ t, run I code (ds.map (g t)) = some (outs.map (g t)) := by
  have key : ∀ (cs : List (T → V)) (es : List D),
      List.Forall₂ (fun c d => ∀ t, c t = g t d) cs es → ∀ t, cs.map (· t) = es.map (g t) := by
    intro cs es h t
    induction h with
    | nil => rfl
    | cons h1 _ ih => simp only [List.map_cons, ih, h1 t]
  have key2 : ∀ es : List D,
      List.Forall₂ (fun (c : T → V) d => ∀ t, c t = g t d) (es.map fun d t => g t d) es := by
    intro es
    induction es with
    | nil => exact .nil
    | cons e es ih => exact .cons (fun t => rfl) ih
  obtain ⟨ocs, h1, h2⟩ := C93_transformation I J (fun (c : T → V) d => ∀ t, c t = g t d)
    (by
      intro p cs es outs' hr hp
      refine ⟨outs'.map fun d t => g t d, fun t => ?_, key2 _⟩
      rw [key cs es hr t, hrule p es outs' hp t, List.map_map]
      rfl)
    (fun c d hd t => by rw [hfin t d, ← hd t]) code (ds.map fun d t => g t d) ds outs (key2 ds) ho
  intro t
  rw [← key _ _ (key2 ds) t, h1 t, key _ _ h2 t]

/-- A lane of a batch of values and a batch of tangents. -/
def laneDual {B : Nat} {E : Type} (b : Fin B) (d : Bat B E × Option (Bat B E)) : E × Option E :=
  (d.1.lane b, d.2.map (Bat.lane b))

/-- `vmap` of `jvp` (JAX): `rule` is the rule of a primitive for `jvp`, run on batches; the results of a wrapped function
are instantiated (primitive.py:133-136). -/
def vmapJvpI {P E : Type} {B : Nat} [Zero E]
    (rule : P → List (Bat B E × Option (Bat B E)) → Option (List (Bat B E × Option (Bat B E)))) :
    Interp P (Bat B E × Option (Bat B E)) :=
  ⟨rule, fun d => (d.1, some (d.2.getD (.all 0)))⟩

/-- C93.  Derivatives for every example: `vmap(jvp(f))` of a program with wrapped functions computes in every lane the value
and the derivative of the program in which the functions are called. -/
theorem C93_vmap_jvp {P E : Type} {B : Nat} [NormedAddCommGroup E] [NormedSpace ℝ E] (impl : P → List E → Option (List E))
    (jvp : P → List (E × Option E) → Option (List (E × Option E)))
    (rule : P → List (Bat B E × Option (Bat B E)) → Option (List (Bat B E × Option (Bat B E))))
    (hjvp : ∀ p cs ds outs, List.Forall₂ Deriv0 cs ds → jvp p ds = some outs →
      ∃ ocs, (∀ t, impl p (cs.map (· t)) = some (ocs.map (· t))) ∧ List.Forall₂ Deriv0 ocs outs)
    (hrule : ∀ p ds outs, rule p ds = some outs → ∀ b, jvp p (ds.map (laneDual b)) = some (outs.map (laneDual b)))
    (code : Code P) (hb : WellBound code) (ds outs : List (Bat B E × Option (Bat B E)))
    (ho : run (vmapJvpI rule) code ds = some outs) (b : Fin B) (cs : List (ℝ → E))
    (h : List.Forall₂ Deriv0 cs (ds.map (laneDual b))) :
    ∃ ocs, (∀ t, direct impl code (cs.map (· t)) = some (ocs.map (· t))) ∧
      List.Forall₂ Deriv0 ocs (outs.map (laneDual b)) := by
  refine C93_jvp impl jvp hjvp code hb cs _ _ h ?_
  refine C93_lanes (jvpI jvp) (vmapJvpI rule) laneDual hrule ?_ code ds outs ho b
  rintro b ⟨v, _ | t⟩ <;> rfl

/-- C93.  Abstract evaluation of a program with wrapped functions gives the shapes and dtypes of its results. -/
theorem C93_abstract {P V A : Type} (impl : P → List V → Option (List V)) (abs : P → List A → Option (List A))
    (aval : V → A)
    (hrule : ∀ p xs outs, abs p (xs.map aval) = some outs → ∃ ys, impl p xs = some ys ∧ ys.map aval = outs)
    (code : Code P) (hb : WellBound code) (xs : List V) (outs : List A)
    (ho : run (absI abs) code (xs.map aval) = some outs) :
    ∃ ys, direct impl code xs = some ys ∧ ys.map aval = outs := by
  have key : ∀ (cs : List (Unit → V)) (es : List A),
      List.Forall₂ (fun c d => aval (c ()) = d) cs es → (cs.map (· ())).map aval = es := by
    intro cs es h
    induction h with
    | nil => rfl
    | cons h1 _ ih => simp only [List.map_cons, ih, h1]
  have key2 : ∀ ys : List V,
      List.Forall₂ (fun (c : Unit → V) d => aval (c ()) = d) (ys.map fun y _ => y) (ys.map aval) := by
    intro ys
    induction ys with
    | nil => exact .nil
    | cons e es ih => exact .cons rfl ih
  have key3 : ∀ ys : List V, (ys.map fun y (_ : Unit) => y).map (· ()) = ys := by
    intro ys
    induction ys with
    | nil => rfl
    | cons e es ih => simp only [List.map_cons, ih]
  obtain ⟨ocs, h1, h2⟩ := C93_transformation (evalI impl) (absI abs) (fun (c : Unit → V) d => aval (c ()) = d)
    (by
      intro p cs es outs' hr hp
      rw [← key cs es hr] at hp
      obtain ⟨ys, hy, hm⟩ := hrule p _ outs' hp
      refine ⟨ys.map fun y _ => y, fun t => ?_, hm ▸ key2 ys⟩
      change impl p (cs.map (· ())) = some ((ys.map fun y (_ : Unit) => y).map (· ()))
      rw [hy, key3])
    (fun c d hd => hd) code (xs.map fun y _ => y) (xs.map aval) outs (key2 xs) ho
  refine ⟨ocs.map (· ()), ?_, key ocs outs h2⟩
  rw [← C93_eval impl code hb, ← h1 (), key3]

/-! ### Witnesses -/

/-- `false` adds, `true` multiplies. -/
def demoImpl : Bool → List ℝ → Option (List ℝ)
  | false, [a, b] => some [a + b]
  | true, [a, b] => some [a * b]
  | _, _ => none

/-- Their rules, with symbolic zeros. -/
def demoJvp : Bool → List (ℝ × Option ℝ) → Option (List (ℝ × Option ℝ))
  | false, [(a, none), (b, none)] => some [(a + b, none)]
  | false, [(a, s), (b, t)] => some [(a + b, some (s.getD 0 + t.getD 0))]
  | true, [(a, none), (b, none)] => some [(a * b, none)]
  | true, [(a, s), (b, t)] => some [(a * b, some (s.getD 0 * b + a * t.getD 0))]
  | _, _ => none

theorem demo_rule : ∀ p cs ds outs, List.Forall₂ Deriv0 cs ds → demoJvp p ds = some outs →
    ∃ ocs, (∀ t, demoImpl p (cs.map (· t)) = some (ocs.map (· t))) ∧ List.Forall₂ Deriv0 ocs outs := by
  intro p cs ds outs h ho
  have hlen : ∃ d e, ds = [d, e] := by
    rcases ds with _ | ⟨d, _ | ⟨e, _ | ⟨f, r⟩⟩⟩
    · cases p <;> simp [demoJvp] at ho
    · cases p <;> rcases d with ⟨a, _ | s⟩ <;> simp [demoJvp] at ho
    · exact ⟨d, e, rfl⟩
    · cases p <;> rcases d with ⟨a, _ | s⟩ <;> rcases e with ⟨b, _ | t⟩ <;> simp [demoJvp] at ho
  obtain ⟨⟨a, s⟩, ⟨b, t⟩, rfl⟩ := hlen
  rcases h with _ | ⟨h1, _ | ⟨h2, _ | _⟩⟩
  rename_i c1 c2
  obtain ⟨v1, d1⟩ := h1
  obtain ⟨v2, d2⟩ := h2
  simp only at v1 v2 d1 d2
  cases p
  · refine ⟨[fun t => c1 t + c2 t], fun _ => rfl, ?_⟩
    have hd : HasDerivAt (fun t => c1 t + c2 t) _ 0 := d1.add d2
    cases s <;> cases t <;> simp only [demoJvp, Option.some.injEq] at ho <;> subst ho <;>
      refine .cons ⟨by simp [v1, v2], ?_⟩ .nil <;> simpa using hd
  · refine ⟨[fun t => c1 t * c2 t], fun _ => rfl, ?_⟩
    have hd : HasDerivAt (fun t => c1 t * c2 t) _ 0 := d1.mul d2
    rw [v1, v2] at hd
    cases s <;> cases t <;> simp only [demoJvp, Option.some.injEq] at ho <;> subst ho <;>
      refine .cons ⟨by simp [v1, v2], ?_⟩ .nil <;> simpa using hd

/-- Batching rules. -/
def demoBatch {B : Nat} (p : Bool) : List (Bat B ℝ) → Option (List (Bat B ℝ))
  | [.all a, .all b] => some [.all (if p then a * b else a + b)]
  | [d, e] => some [.lanes fun b => if p then d.lane b * e.lane b else d.lane b + e.lane b]
  | _ => none

theorem demo_batch_rule {B : Nat} : ∀ p (ds outs : List (Bat B ℝ)), demoBatch p ds = some outs →
    ∀ b, demoImpl p (ds.map (Bat.lane b)) = some (outs.map (Bat.lane b)) := by
  intro p ds outs h b
  rcases ds with _ | ⟨d, _ | ⟨e, _ | ⟨f, r⟩⟩⟩
  · simp [demoBatch] at h
  · cases d <;> simp [demoBatch] at h
  · cases p <;> cases d <;> cases e <;> simp only [demoBatch, Option.some.injEq] at h <;> subst h <;>
      simp [demoImpl, Bat.lane]
  · cases d <;> cases e <;> simp [demoBatch] at h

/-- Abstract evaluation of numbers. -/
def demoAbs (_ : Bool) : List Unit → Option (List Unit)
  | [_, _] => some [()]
  | _ => none

theorem demo_abs_rule : ∀ p (xs : List ℝ) outs, demoAbs p (xs.map fun _ => ()) = some outs →
    ∃ ys, demoImpl p xs = some ys ∧ ys.map (fun _ => ()) = outs := by
  intro p xs outs h
  rcases xs with _ | ⟨d, _ | ⟨e, _ | ⟨f, r⟩⟩⟩ <;> simp [demoAbs] at h
  subst h
  cases p <;> simp [demoImpl]

/-- `wrapped(x) + x` where the wrapped function multiplies by a constant and calls a wrapped square. -/
def demoCode : Code Bool :=
  .wrap 1 1 (.wrap 0 1 (.prim true [0, 0] (.ret [1])) [] [1] (.prim true [0, 2] (.ret [3]))) [0] [1]
    (.prim false [2, 1] (.ret [3]))

theorem demoCode_bound : WellBound demoCode := by simp [demoCode, WellBound]

/-- `5 * x² + x` at `x = 3` with tangent 1 and a symbolic zero for the constant 5. -/
example : run (jvpI demoJvp) demoCode [(5, none), (3, some 1)] = some [(48, some 31)] ∧
    List.Forall₂ Deriv0 [fun _ => 5, fun t => 3 + t] [((5 : ℝ), none), (3, some 1)] ∧
    direct demoImpl demoCode [5, 3] = some [48] := by
  refine ⟨?_, .cons ⟨rfl, by simpa using hasDerivAt_const (0 : ℝ) (5 : ℝ)⟩ (.cons ⟨by simp, ?_⟩ .nil), ?_⟩
  · simp [demoCode, run, readAll, jvpI, demoJvp]
    norm_num
  · simpa using (hasDerivAt_id (0 : ℝ)).const_add 3
  · simp [demoCode, direct, readAll, demoImpl]
    norm_num

/-- The same program under `vmap` in two lanes, the constant not mapped, and its shapes. -/
example : ((run (vmapI (B := 2) demoBatch) demoCode [.all 5, .lanes fun b => if b = 0 then 3 else 1]).map
      fun outs => outs.map (Bat.lane 0) ++ outs.map (Bat.lane 1)) = some [48, 6] ∧
    run (absI demoAbs) demoCode [(), ()] = some [()] := by
  refine ⟨?_, rfl⟩
  simp [demoCode, run, readAll, vmapI, demoBatch, Bat.lane]
  norm_num

/-- The rules of `jvp` run on batches. -/
def demoVmapJvp {B : Nat} (p : Bool) :
    List (Bat B ℝ × Option (Bat B ℝ)) → Option (List (Bat B ℝ × Option (Bat B ℝ)))
  | [(a, s), (b, t)] =>
    let v : Bat B ℝ := .lanes fun i => if p then a.lane i * b.lane i else a.lane i + b.lane i
    match s, t with
    | none, none => some [(v, none)]
    | s, t =>
      let ds := fun i => ((s.map (Bat.lane i)).getD 0)
      let dt := fun i => ((t.map (Bat.lane i)).getD 0)
      some [(v, some (.lanes fun i => if p then ds i * b.lane i + a.lane i * dt i else ds i + dt i))]
  | _ => none

theorem demo_vmapJvp_rule {B : Nat} : ∀ p (ds outs : List (Bat B ℝ × Option (Bat B ℝ))), demoVmapJvp p ds = some outs →
    ∀ b, demoJvp p (ds.map (laneDual b)) = some (outs.map (laneDual b)) := by
  intro p ds outs h b
  rcases ds with _ | ⟨d, _ | ⟨e, _ | ⟨f, r⟩⟩⟩
  · simp [demoVmapJvp] at h
  · simp [demoVmapJvp] at h
  · obtain ⟨a, s⟩ := d
    obtain ⟨c, t⟩ := e
    cases p <;> cases s <;> cases t <;> simp only [demoVmapJvp, Option.some.injEq] at h <;> subst h <;>
      simp [demoJvp, laneDual, Bat.lane]
  · simp [demoVmapJvp] at h

/-- The derivative of `5 * x² + x` at 3 and at 1. -/
example : ((run (vmapJvpI (B := 2) demoVmapJvp) demoCode
      [(.all 5, none), (.lanes fun b => if b = 0 then 3 else 1, some (.all 1))]).map
      fun outs => outs.map (laneDual 0) ++ outs.map (laneDual 1)) = some [(48, some 31), (6, some 11)] := by
  simp [demoCode, run, readAll, vmapJvpI, demoVmapJvp, Bat.lane, laneDual]
  norm_num

end Verif.Util.Trans
