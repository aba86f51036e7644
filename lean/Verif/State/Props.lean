/-
Properties of stateful functions (C21, C22).
-/
import Verif.State.Lemmas

namespace Verif.State

open Verif.Harvest

/-- Everything `init` did, unfolded. -/
theorem functionInit_ok {V K X Y : Type} {fuel : Nat} {key0 : K} {f : Prog V (K × X) Y} {name : Option String}
    {key : K} {x : X} {m : FModule V X Y} (h : functionInit fuel key0 f name key x = .ok m) :
    ∃ r g st h' j me, reap reapS f = .ok r ∧ run fuel r (key, x) = .ok m.variables ∧
      plantCheck varS f m.variables [] = .ok st ∧
      g = .seq (.pure (fun a => .ok ((key0, a.2), a.1)))
        (.seq (plantT varS f m.variables) (.pure (fun r => .ok r.1))) ∧
      plant asgS g (fun _ => none) = .ok h' ∧ metaOf asgS h' [] = .ok me ∧ callAndReap asgS h' = .ok j ∧
      m = ⟨name, m.variables, j, me.map (·.1)⟩ := by
  simp only [functionInit] at h
  rcases h1 : reap reapS f with e | r <;> rw [h1] at h <;> simp only [reduceCtorEq] at h
  rcases h2 : run fuel r (key, x) with e | vars <;> rw [h2] at h <;> simp only [reduceCtorEq] at h
  rcases h3 : applyF key0 f vars with e | g <;> rw [h3] at h <;> simp only [reduceCtorEq] at h
  rcases h4 : plant asgS g (fun _ => none) with e | h' <;> rw [h4] at h <;> simp only [reduceCtorEq] at h
  rcases h5 : metaOf asgS h' [] with e | me <;> rw [h5] at h <;> try (simp only [reduceCtorEq] at h)
  rcases h6 : callAndReap asgS h' with e | j <;> rw [h6] at h <;>
    simp only [reduceCtorEq, Except.ok.injEq] at h
  subst h
  simp only [applyF] at h3
  rcases h7 : plantCheck varS f vars [] with e | st <;> rw [h7] at h3 <;>
    simp only [reduceCtorEq, Except.ok.injEq] at h3
  exact ⟨r, g, st, h', j, me, rfl, h2, rfl, h3.symm, h4, h5, h6, rfl⟩

/-- C21: the variables of an initialised module are exactly the values tagged with `variable` in the
execution of `f` with the initialisation key. -/
theorem init_variables {V K X Y : Type} (fuel : Nat) (key0 : K) (f : Prog V (K × X) Y) (name : Option String)
    (key : K) (x : X) (m : FModule V X Y) (h : functionInit fuel key0 f name key x = .ok m)
    (c : String → Bool) (hreg : Regular reapS c f) :
    ∃ y log, trace fuel f (key, x) = .ok (y, log) ∧ m.variables = expected reapS f log := by
  obtain ⟨r, g, st, h', j, me, h1, h2, -⟩ := functionInit_ok h
  simp only [reap] at h1
  rcases hc : callAndReap reapS f with e | t <;> rw [hc] at h1 <;> simp at h1
  subst h1
  simp only [run, reap_exact_partial reapS c f t hreg hc] at h2
  rcases ht : trace fuel f (key, x) with e | ⟨y, log⟩ <;> rw [ht] at h2 <;> simp at h2
  exact ⟨y, log, rfl, h2.symm⟩

/-- C21: the names of the variables (no side condition). -/
theorem init_variable_names {V K X Y : Type} (fuel : Nat) (key0 : K) (f : Prog V (K × X) Y)
    (name : Option String) (key : K) (x : X) (m : FModule V X Y)
    (h : functionInit fuel key0 f name key x = .ok m) (n : String) :
    (m.variables n).isSome = (declares reapS n (sites f)).isSome := by
  obtain ⟨r, g, st, h', j, me, h1, h2, -⟩ := functionInit_ok h
  simp only [reap] at h1
  rcases hc : callAndReap reapS f with e | t <;> rw [hc] at h1 <;> simp at h1
  subst h1
  simp only [run] at h2
  rcases ht : run fuel t (key, x) with e | q <;> rw [ht] at h2 <;> simp at h2
  rw [← h2]
  exact reap_keys reapS f t hc fuel _ q ht n

theorem asg_ne_var : asgS.tag ≠ varS.tag := by decide

/-- The names assigned by `f`. -/
theorem init_assigned {V K X Y : Type} {fuel : Nat} {key0 : K} {f : Prog V (K × X) Y}
    {name : Option String} {key : K} {x : X} {m : FModule V X Y}
    (h : functionInit fuel key0 f name key x = .ok m) (n : String) :
    n ∈ m.assigned ↔ (declares asgS n (sites f)).isSome := by
  obtain ⟨r, g, st, h', j, me, -, -, hc, hg, hp, hme, hj, hm⟩ := functionInit_ok h
  have hsg : sites g = keptSites varS m.variables (sites f) := by
    rw [hg]; simp [sites, sites_plantT f _ _ _ hc (scopes_of_none _ _ f)]
  obtain ⟨⟨st2, hc2⟩, hgeq⟩ := plant_ok hp
  have hmm := metaOf_plantT_none asgS g ⟨_, _, hc2⟩ []
  have hmg : metaOf asgS g [] = .ok me := by
    rw [hgeq] at hme
    simp only [metaOf, except_bind_ok, hmm] at hme
    rcases hh : metaOf asgS g [] with e | m' <;> rw [hh] at hme <;> simp at hme
    rw [hme]
  have ha : m.assigned = me.map (·.1) := by rw [hm]
  rw [ha, ← Meta.get_isSome_iff, metaOf_nil_get hmg, hsg, (kept_other asg_ne_var rfl _ _).2]

/-- The staged function of the module: one execution of `f` with its variables replaced by the dictionary
passed in. -/
theorem run_jaxpr {V K X Y : Type} {fuel : Nat} {key0 : K} {f : Prog V (K × X) Y}
    {name : Option String} {key : K} {x : X} {m : FModule V X Y}
    (h : functionInit fuel key0 f name key x = .ok m) (c : String → Bool) (hreg : Regular asgS c f)
    (vars : Dict V) (hp : Plain vars) (hsh : ∀ n, Shape (m.variables n) (vars n)) (fuel' : Nat) (x' : X) :
    run fuel' m.jaxpr (vars, x') = (ptrace varS fuel' f vars (key0, x')).map
      (fun r => (r.1, expected asgS f r.2)) := by
  obtain ⟨r, g, st, h', j, me, -, -, hc, hg, hp', hme, hj, hm⟩ := functionInit_ok h
  have hsc := scopes_of_none (V := V) variableTag false f
  have hsg : sites g = keptSites varS m.variables (sites f) := by
    rw [hg]; simp [sites, sites_plantT f _ _ _ hc hsc]
  have hjx : m.jaxpr = j := by rw [hm]
  have hrg : Regular asgS c g := by
    rw [hg]; exact ⟨trivial, regular_plantT_other asg_ne_var rfl f _ _ _ hc hsc hreg, trivial⟩
  obtain ⟨⟨st2, hc2⟩, hgeq⟩ := plant_ok hp'
  have hmm := metaOf_plantT_none asgS g ⟨_, _, hc2⟩ []
  have hmg : metaOf asgS g [] = .ok me := by
    rw [hgeq] at hme
    simp only [metaOf, except_bind_ok, hmm] at hme
    rcases hh : metaOf asgS g [] with e | m' <;> rw [hh] at hme <;> simp at hme
    rw [hme]
  have hacc : ∃ t, callAndReap asgS g = .ok t := by simp only [callAndReap, hmg]; exact ⟨_, rfl⟩
  obtain ⟨t, ht⟩ := hacc
  obtain ⟨j', hj', hrun⟩ := reap_plant_nothing asgS g h' hp' t ht
  rw [hj] at hj'
  cases hj'
  rw [hjx, hrun, reap_exact_partial asgS c g t hrg ht]
  have htr : trace fuel' g (vars, x') = ptrace varS fuel' f vars (key0, x') := by
    rw [hg]
    simp only [trace, except_map_ok, except_bind_ok, trace_plantT fuel' f _ _ _ hc hsc vars hp hsh]
    rcases ptrace varS fuel' f vars (key0, x') with e | r <;> simp
  rw [htr]
  congr 1
  funext r
  congr 1
  funext n
  simp only [expected, hsg, (kept_other asg_ne_var rfl _ _).2]

/-- C21, C22: what `call_and_update` does in any state of the module (any variables with the structure of the
initial ones): it executes `f` once with its variables replaced by the current ones, fails when that fails,
raises when `f` assigns a name that is not a variable, and otherwise returns the output of that execution and
the variables where exactly the assigned names are changed, to the value assigned in that execution. -/
theorem callAndUpdate_spec {V K X Y : Type} (fuel : Nat) (key0 : K) (f : Prog V (K × X) Y)
    (name : Option String) (key : K) (x : X) (m : FModule V X Y)
    (h : functionInit fuel key0 f name key x = .ok m) (c : String → Bool) (hreg : Regular asgS c f)
    (vars : Dict V) (hp : Plain vars) (hsh : ∀ n, Shape (m.variables n) (vars n)) (fuel' : Nat) (x' : X) :
    (∀ e, ptrace varS fuel' f vars (key0, x') = .error e →
      (m.replace vars).callAndUpdate fuel' x' = .error (.running e)) ∧
    (∀ y log, ptrace varS fuel' f vars (key0, x') = .ok (y, log) →
      ((∃ n, (declares asgS n (sites f)).isSome ∧ vars n = none) →
        ∃ n, (declares asgS n (sites f)).isSome ∧ vars n = none ∧
          (m.replace vars).callAndUpdate fuel' x' = .error (.noVariable n)) ∧
      ((∀ n, (declares asgS n (sites f)).isSome → (vars n).isSome) →
        (m.replace vars).callAndUpdate fuel' x' = .ok (y, fun n =>
          if (declares asgS n (sites f)).isSome then some ((collect asgS n log).getD .zeros) else vars n))) := by
  have hr := run_jaxpr h c hreg vars hp hsh fuel' x'
  have ha := init_assigned h
  constructor
  · intro e he
    rw [he] at hr
    simp only [FModule.callAndUpdate, FModule.replace, hr, except_map_error]
  · intro y log ht
    rw [ht] at hr
    constructor
    · rintro ⟨n, hn, hv⟩
      rcases hf : m.assigned.find? (fun n => (vars n).isNone) with _ | n'
      · rw [List.find?_eq_none] at hf
        have := hf n ((ha n).2 hn)
        simp [hv] at this
      · refine ⟨n', (ha n').1 (List.mem_of_find?_eq_some hf), ?_, ?_⟩
        · have := List.find?_some hf
          simpa using this
        · simp only [FModule.callAndUpdate, FModule.replace, hr, except_map_ok, hf]
    · intro hall
      have hf : m.assigned.find? (fun n => (vars n).isNone) = none := by
        rw [List.find?_eq_none]
        intro n hn
        have := hall n ((ha n).1 hn)
        rw [Option.isSome_iff_ne_none] at this
        simpa using this
      simp only [FModule.callAndUpdate, FModule.replace, hr, except_map_ok, hf, Except.ok.injEq,
        Prod.mk.injEq, true_and]
      funext n
      by_cases hn : (declares asgS n (sites f)).isSome
      · simp only [(ha n).2 hn, List.contains_iff_mem.2, if_true, hn, expected]
      · have : n ∉ m.assigned := fun h => hn ((ha n).1 h)
        simp [this, hn]

/-- C21: `call` and `update` are the two halves of `call_and_update`: they fail exactly when it does, and
neither of them changes anything but what `update` returns. -/
theorem call_update_halves {V X Y : Type} (fuel : Nat) (m : FModule V X Y) (x : X) :
    (∀ y vars, m.callAndUpdate fuel x = .ok (y, vars) →
      m.call fuel x = .ok y ∧ ∃ m', m.update fuel x = .ok m' ∧ m'.variables = vars ∧ m'.name = m.name) ∧
    (∀ e, m.callAndUpdate fuel x = .error e → m.call fuel x = .error e ∧ m.update fuel x = .error e) := by
  constructor
  · intro y vars h
    simp only [FModule.call, FModule.update, h]
    exact ⟨rfl, _, rfl, rfl, rfl⟩
  · intro e h
    simp [FModule.call, FModule.update, h]

/-- C21: a function without an `init_key` argument is called as it is and has no state. -/
theorem stateless_spec {V X Y : Type} (fuel : Nat) (f : Prog V X Y) (name : Option String) (x : X) :
    (∀ n, (statelessInit f name).variables n = none) ∧
    (statelessInit f name).call fuel x =
      (match run fuel f x with | .ok y => .ok y | .error e => .error (.running e)) ∧
    ∀ m', (statelessInit f name).update fuel x = .ok m' → m' = statelessInit f name := by
  refine ⟨fun n => rfl, ?_, ?_⟩
  · simp only [FModule.call, FModule.callAndUpdate, statelessInit, run]
    rcases run fuel f x with e | y <;> rfl
  · intro m' h
    simp only [FModule.update, FModule.callAndUpdate, statelessInit, run] at h
    rcases hr : run fuel f x with e | y <;> rw [hr] at h <;> simp [FModule.replace] at h
    rw [← h]; rfl

/-! ### C22: histories -/

/-- The assigned values have the structure of the variables they are assigned to (otherwise the staged
function is called with arguments of the wrong structure). -/
def AssignsFit {V K X Y : Type} (fuel : Nat) (key0 : K) (f : Prog V (K × X) Y) (P0 : Dict V) : Prop :=
  ∀ vars x y log, ptrace varS fuel f vars (key0, x) = .ok (y, log) → ∀ n,
    (declares asgS n (sites f)).isSome → (P0 n).isSome →
      Shape (P0 n) (some ((collect asgS n log).getD .zeros)) ∧ PlainV (some ((collect asgS n log).getD .zeros))

/-- `History f key0 s xs s' ws`: starting from variables `s`, executing `f` on the arguments `xs` one after
the other, each time with the variables left by the previous execution, leaves `s'`; `ws` are the logs of the
executions. -/
inductive History {V K X Y : Type} (fuel : Nat) (key0 : K) (f : Prog V (K × X) Y) :
    Dict V → List X → Dict V → List (Log V) → Prop
  | nil (s) : History fuel key0 f s [] s []
  | cons (s x y log s1 xs s2 logs) (hx : ptrace varS fuel f s (key0, x) = .ok (y, log))
      (hs : ∀ n, s1 n = if (declares asgS n (sites f)).isSome then some ((collect asgS n log).getD .zeros)
        else s n)
      (ht : History fuel key0 f s1 xs s2 logs) : History fuel key0 f s (x :: xs) s2 (log :: logs)

theorem history_aux {V K X Y : Type} {fuel : Nat} {key0 : K} {f : Prog V (K × X) Y}
    {name : Option String} {key : K} {x : X} {m : FModule V X Y}
    (h : functionInit fuel key0 f name key x = .ok m) (c : String → Bool) (hreg : Regular asgS c f)
    (fuel' : Nat) (hfit : AssignsFit fuel' key0 f m.variables) (xs : List X) :
    ∀ (vars : Dict V), Plain vars → (∀ n, Shape (m.variables n) (vars n)) → ∀ m',
      updates fuel' (m.replace vars) xs = .ok m' →
      ∃ vars' logs, m' = m.replace vars' ∧ Plain vars' ∧ (∀ n, Shape (m.variables n) (vars' n)) ∧
        History fuel' key0 f vars xs vars' logs := by
  induction xs with
  | nil =>
    intro vars hp hsh m' hu
    simp only [updates, Except.ok.injEq] at hu
    exact ⟨vars, [], hu.symm, hp, hsh, .nil _⟩
  | cons x' xs ih =>
    intro vars hp hsh m' hu
    obtain ⟨he, hok⟩ := callAndUpdate_spec fuel key0 f name key x m h c hreg vars hp hsh fuel' x'
    simp only [updates, FModule.update] at hu
    rcases ht : ptrace varS fuel' f vars (key0, x') with e | ⟨y, log⟩
    · rw [he e ht] at hu; simp at hu
    · obtain ⟨hbad, hgood⟩ := hok y log ht
      by_cases hall : ∀ n, (declares asgS n (sites f)).isSome → (vars n).isSome
      · rw [hgood hall] at hu
        simp only at hu
        have hdef : ∀ n, (declares asgS n (sites f)).isSome →
            Shape (m.variables n) (some ((collect asgS n log).getD .zeros)) ∧
            PlainV (some ((collect asgS n log).getD .zeros)) := by
          intro n hn
          exact hfit vars x' y log ht n hn (by rw [(hsh n).isSome]; exact hall n hn)
        obtain ⟨vars', logs, h1, h2, h3, h4⟩ := ih (fun n =>
            if (declares asgS n (sites f)).isSome then some ((collect asgS n log).getD .zeros) else vars n)
          (by intro n
              by_cases hn : (declares asgS n (sites f)).isSome
              · simpa [hn] using (hdef n hn).2
              · simpa [hn] using hp n)
          (by intro n
              by_cases hn : (declares asgS n (sites f)).isSome
              · simpa [hn] using (hdef n hn).1
              · simpa [hn] using hsh n) m' hu
        exact ⟨vars', log :: logs, h1, h2, h3, .cons _ _ _ _ _ _ _ _ ht (fun n => rfl) h4⟩
      · simp only [not_forall] at hall
        obtain ⟨n, hn, hv⟩ := hall
        obtain ⟨n', -, -, hb⟩ := hbad ⟨n, hn, by simpa using hv⟩
        rw [hb] at hu; simp at hu

/-- C22: the variables after any history of updates are those left by executing `f` on the arguments one
after the other. -/
theorem updates_history {V K X Y : Type} (fuel : Nat) (key0 : K) (f : Prog V (K × X) Y)
    (name : Option String) (key : K) (x : X) (m : FModule V X Y)
    (h : functionInit fuel key0 f name key x = .ok m) (c : String → Bool) (hreg : Regular asgS c f)
    (hp : Plain m.variables) (fuel' : Nat) (hfit : AssignsFit fuel' key0 f m.variables) (xs : List X)
    (m' : FModule V X Y) (hu : updates fuel' m xs = .ok m') :
    ∃ logs, History fuel' key0 f m.variables xs m'.variables logs := by
  obtain ⟨vars', logs, h1, -, -, h4⟩ := history_aux h c hreg fuel' hfit xs m.variables hp
    (fun n => Shape.reflO _) m' hu
  exact ⟨logs, by rw [h1]; exact h4⟩

/-- In a history, a variable holds the value assigned last, and its initial value when it is not assigned. -/
theorem History.last {V K X Y : Type} {fuel : Nat} {key0 : K} {f : Prog V (K × X) Y} {s : Dict V}
    {xs : List X} {s' : Dict V} {logs : List (Log V)} (h : History fuel key0 f s xs s' logs) (n : String) :
    ((declares asgS n (sites f)) = none → s' n = s n) ∧
    ((declares asgS n (sites f)).isSome → ∀ log, logs.getLast? = some log →
      s' n = some ((collect asgS n log).getD .zeros)) := by
  induction h with
  | nil s => exact ⟨fun _ => rfl, fun _ log hl => by simp at hl⟩
  | cons s x y log s1 xs s2 logs hx hs ht ih =>
    constructor
    · intro hn
      rw [ih.1 hn, hs n, hn]; simp
    · intro hn log' hl
      cases ht with
      | nil s =>
        simp only [List.getLast?_singleton, Option.some.injEq] at hl
        subst hl
        rw [hs n, hn]; simp
      | cons _ x2 y2 log2 s3 xs2 _ logs2 hx2 hs2 ht2 =>
        rw [List.getLast?_cons_cons] at hl
        exact ih.2 hn log' hl

theorem History.length {V K X Y : Type} {fuel : Nat} {key0 : K} {f : Prog V (K × X) Y} {s : Dict V}
    {xs : List X} {s' : Dict V} {logs : List (Log V)} (h : History fuel key0 f s xs s' logs) :
    logs.length = xs.length := by
  induction h with
  | nil s => rfl
  | cons s x y log s1 xs s2 logs hx hs ht ih => simp [ih]

/-- C22: what a variable holds after a non-empty history: the value assigned in the last execution if `f`
assigns it, and otherwise its initial value. -/
theorem updates_last {V K X Y : Type} (fuel : Nat) (key0 : K) (f : Prog V (K × X) Y)
    (name : Option String) (key : K) (x : X) (m : FModule V X Y)
    (h : functionInit fuel key0 f name key x = .ok m) (c : String → Bool) (hreg : Regular asgS c f)
    (hp : Plain m.variables) (fuel' : Nat) (hfit : AssignsFit fuel' key0 f m.variables) (xs : List X)
    (m' : FModule V X Y) (hu : updates fuel' m xs = .ok m') :
    ∃ logs, History fuel' key0 f m.variables xs m'.variables logs ∧ logs.length = xs.length ∧ ∀ n,
      (declares asgS n (sites f) = none → m'.variables n = m.variables n) ∧
      ((declares asgS n (sites f)).isSome → ∀ log, logs.getLast? = some log →
        m'.variables n = some ((collect asgS n log).getD .zeros)) := by
  obtain ⟨logs, hh⟩ := updates_history fuel key0 f name key x m h c hreg hp fuel' hfit xs m' hu
  refine ⟨logs, hh, ?_, fun n => hh.last n⟩
  exact hh.length

/-- C22: a name that is never assigned keeps its value in every history (no side condition). -/
theorem updates_frame {V K X Y : Type} (fuel : Nat) (key0 : K) (f : Prog V (K × X) Y)
    (name : Option String) (key : K) (x : X) (m : FModule V X Y)
    (h : functionInit fuel key0 f name key x = .ok m) (n : String) (hn : declares asgS n (sites f) = none)
    (fuel' : Nat) (xs : List X) (m' : FModule V X Y) (hu : updates fuel' m xs = .ok m') :
    m'.variables n = m.variables n := by
  have ha : n ∉ m.assigned := by rw [init_assigned h, hn]; simp
  clear h
  induction xs generalizing m with
  | nil => simp only [updates, Except.ok.injEq] at hu; rw [hu]
  | cons x' xs ih =>
    simp only [updates, FModule.update] at hu
    rcases hc : m.callAndUpdate fuel' x' with e | ⟨y, vars⟩ <;> rw [hc] at hu
    · simp at hu
    · simp only at hu
      have := ih (m.replace vars) hu ha
      rw [this]
      simp only [FModule.callAndUpdate] at hc
      split at hc
      · simp at hc
      · split at hc
        · simp at hc
        · simp only [Except.ok.injEq, Prod.mk.injEq] at hc
          simp [FModule.replace, ← hc.2, ha]

/-- C22: assigning a name that is not a variable raises, whatever the state and the argument (unless the
computation itself fails before). -/
theorem unknown_assign {V K X Y : Type} (fuel : Nat) (key0 : K) (f : Prog V (K × X) Y)
    (name : Option String) (key : K) (x : X) (m : FModule V X Y)
    (h : functionInit fuel key0 f name key x = .ok m) (n : String)
    (hn : (declares asgS n (sites f)).isSome) (hv : declares reapS n (sites f) = none) (fuel' : Nat) (x' : X) :
    (∃ n', m.callAndUpdate fuel' x' = .error (.noVariable n') ∧ (declares asgS n' (sites f)).isSome ∧
      declares reapS n' (sites f) = none) ∨
    ∃ e, m.callAndUpdate fuel' x' = .error (.running e) ∧ run fuel' m.jaxpr (m.variables, x') = .error e := by
  have hvars := init_variable_names fuel key0 f name key x m h
  have hmem := (init_assigned h n).2 hn
  simp only [FModule.callAndUpdate]
  rcases hr : run fuel' m.jaxpr (m.variables, x') with e | ⟨y, a⟩
  · exact .inr ⟨e, rfl, rfl⟩
  · rcases hf : m.assigned.find? (fun n => (m.variables n).isNone) with _ | n'
    · rw [List.find?_eq_none] at hf
      have h1 := hf n hmem
      have h2 := hvars n
      rw [hv] at h2
      simp at h2
      simp [h2] at h1
    · refine .inl ⟨n', rfl, (init_assigned h n').1 (List.mem_of_find?_eq_some hf), ?_⟩
      have h1 := List.find?_some hf
      have h2 := hvars n'
      rw [Option.isNone_iff_eq_none] at h1
      rw [h1] at h2
      simpa using h2.symm

/-- The variables reaped from an execution, for planting them. -/
theorem declares_reap_var (n : String) (ss : List Site) : declares reapS n ss = declares varS n ss := by
  have hact : ∀ t n, reapS.active t n = varS.active t n := fun _ _ => rfl
  have hany : ∀ ss, anySite reapS ss = anySite varS ss := by
    intro ss
    induction ss using anySite.induct (motive_1 := fun s => Site.any reapS s = Site.any varS s) <;>
      simp_all [anySite, Site.any, reapS, varS, Settings.active]
  induction ss with
  | nil => rfl
  | cons s ss ih =>
    cases s <;> simp [declares, ih, Site.declares, hact, hany] <;> rfl

end Verif.State
