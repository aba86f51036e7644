import Verif.Propagate.Fix

/-!
C24 (propagation terminates in the least solution, whatever the order) and C25 (soundness).
-/
namespace Verif.Propagate

variable {C L S : Type}

/-! ### C24: termination -/

/-- C24.  Every run, in whatever order, is at most as long as the initial queue plus the number of equations
times the total height of the cells: cells need only have a `rank` that never grows with `join` and drops
whenever `<` holds; no monotonicity is needed. -/
theorem propagate_steps_bounded (O : CellOps C L) (J : Jaxpr C L S) (hs : Sized J) (rank : C → Nat)
    (hj : ∀ a b, rank (O.join a b) ≤ rank a) (hlt : ∀ a b, O.lt a b = true → rank b < rank a)
    (consts ins outs : List C) (run : Nat → St C S) (n : Nat) (h0 : Init O J consts ins outs (run 0))
    (hrun : ∀ i < n, Step O J (run i) (run (i + 1))) :
    n ≤ (run 0).queue.length + J.eqns.length *
      (((J.eqns.flatMap (fun q => q.ins ++ q.outs)).filterMap Atom.node).map
        (fun x => rank (initEnv O J consts ins outs x))).sum := by
  have key : ∀ i ≤ n, ValidQueue J (run i).queue ∧ potential rank J (run i) + i ≤ potential rank J (run 0) := by
    intro i
    induction i with
    | zero => intro _; exact ⟨h0.2.1.valid, Nat.le_refl _⟩
    | succ i ih =>
      intro hi
      obtain ⟨hv, hp⟩ := ih (by omega)
      have hst := hrun i (by omega)
      have := hst.potential_lt O rank hj hlt hs hv
      exact ⟨hst.valid O hv, by omega⟩
  have := (key n (Nat.le_refl n)).2
  simp only [potential, total, nodes] at this
  rw [h0.1] at this
  omega

/-- C24.  There is no infinite run. -/
theorem propagate_no_infinite_run (O : CellOps C L) (J : Jaxpr C L S) (hs : Sized J) (rank : C → Nat)
    (hj : ∀ a b, rank (O.join a b) ≤ rank a) (hlt : ∀ a b, O.lt a b = true → rank b < rank a)
    (consts ins outs : List C) :
    ¬ ∃ run : Nat → St C S, Init O J consts ins outs (run 0) ∧ ∀ i, Step O J (run i) (run (i + 1)) := by
  rintro ⟨run, h0, hr⟩
  have := fun n => propagate_steps_bounded O J hs rank hj hlt consts ins outs run n h0 (fun i _ => hr i)
  exact Nat.not_succ_le_self _ (this _)

theorem Steps.valid (O : CellOps C L) {J : Jaxpr C L S} {s t : St C S} (h : Steps O J s t)
    (hv : ValidQueue J s.queue) : ValidQueue J t.queue := by
  induction h with
  | refl => exact hv
  | tail t u _ hst ih => exact hst.valid O ih

/-- C24.  The loop never gets stuck: a reachable state whose queue is not empty has a next state. -/
theorem propagate_progress (O : CellOps C L) (J : Jaxpr C L S) (consts ins outs : List C) (s0 s : St C S)
    (h0 : Init O J consts ins outs s0) (h : Steps O J s0 s) (hne : s.queue ≠ []) : ∃ t, Step O J s t :=
  step_exists O s (h.valid O h0.2.1.valid) hne

/-- C24.  Hence every partial run extends to a complete one. -/
theorem propagate_completes (O : CellOps C L) (J : Jaxpr C L S) (hs : Sized J) (rank : C → Nat)
    (hj : ∀ a b, rank (O.join a b) ≤ rank a) (hlt : ∀ a b, O.lt a b = true → rank b < rank a)
    (consts ins outs : List C) (s0 s : St C S)
    (h0 : Init O J consts ins outs s0) (h : Steps O J s0 s) : ∃ t, Steps O J s t ∧ t.queue = [] := by
  have hv := h.valid O h0.2.1.valid
  clear h h0
  have trans : ∀ {a b c : St C S}, Steps O J a b → Steps O J b c → Steps O J a c := by
    intro a b c hab hbc
    induction hbc with
    | refl => exact hab
    | tail t u _ hst ih => exact .tail _ _ _ ih hst
  have key : ∀ n (s : St C S), potential rank J s = n → ValidQueue J s.queue → ∃ t, Steps O J s t ∧ t.queue = [] := by
    intro n
    induction n using Nat.strong_induction_on with
    | _ n ih =>
      intro s hn hv
      by_cases hq : s.queue = []
      · exact ⟨s, .refl s, hq⟩
      · obtain ⟨t, ht⟩ := step_exists O s hv hq
        have hlt' := ht.potential_lt O rank hj hlt hs hv
        obtain ⟨u, hu, hqu⟩ := ih _ (by omega) t rfl (ht.valid O hv)
        exact ⟨u, trans (.tail _ _ _ (.refl s) ht) hu, hqu⟩
  exact key _ s rfl hv

/-! ### C24: the result -/

/-- C24.  When the loop stops, the environment is the least one that contains the initial information and is
closed under the rules of all equations that were queued initially or have a variable that gained
information. -/
theorem propagate_least [SemilatticeSup C] (O : CellOps C L) (hO : Lawful O) (J : Jaxpr C L S) (hs : Sized J)
    (hi : ∀ q ∈ J.eqns, Idem O q) (hm : ∀ q ∈ J.eqns, Monotone' q) (s0 s : St C S)
    (h : Steps O J s0 s) (hq : s.queue = []) :
    IsLeast (Solutions O J s0.env s0.queue) s.env :=
  ⟨(Inv.steps O hO hs hi h).solution O hq, fun _ hv x => h.env_le O hO hs hi hm hv x⟩

/-- C24.  Two complete runs from the same inputs, with any order of the initial queue and of the equations
woken up, end with the same environment. -/
theorem propagate_order_independent [SemilatticeSup C] (O : CellOps C L) (hO : Lawful O) (J : Jaxpr C L S)
    (hs : Sized J) (hi : ∀ q ∈ J.eqns, Idem O q) (hm : ∀ q ∈ J.eqns, Monotone' q)
    (consts ins outs : List C) (s0 s t0 t : St C S)
    (h0 : Init O J consts ins outs s0) (h0' : Init O J consts ins outs t0)
    (h : Steps O J s0 s) (h' : Steps O J t0 t) (hq : s.queue = []) (hq' : t.queue = []) : s.env = t.env := by
  have h1 := propagate_least O hO J hs hi hm s0 s h hq
  have h2 := propagate_least O hO J hs hi hm t0 t h' hq'
  have he : Solutions O J s0.env s0.queue = Solutions O J t0.env t0.queue := by
    have : ∀ e, e ∈ s0.queue ↔ e ∈ t0.queue := fun e => by rw [h0.2.1.2, h0'.2.1.2]
    simp only [Solutions, h0.1, h0'.1, this]
  rw [he] at h1
  exact le_antisymm (h1.2 h2.1) (h2.2 h1.1)

/-- C24.  Information is never lost: the final cells are above the cells given for the constants, inputs and
outputs. -/
theorem propagate_above_inputs [SemilatticeSup C] (O : CellOps C L) (hO : Lawful O) (J : Jaxpr C L S)
    (consts ins outs : List C) (s0 s : St C S) (h0 : Init O J consts ins outs s0) (h : Steps O J s0 s) :
    (∀ (i x : Nat) (c : C), J.constvars[i]? = some (Atom.var x) → consts[i]? = some c → c ≤ s.env x) ∧
    (∀ (i x : Nat) (c : C), J.invars[i]? = some (Atom.var x) → ins[i]? = some c → c ≤ s.env x) ∧
    (∀ (i x : Nat) (c : C), J.outvars[i]? = some (Atom.var x) → outs[i]? = some c → c ≤ s.env x) := by
  have hup : ∀ x, s0.env x ≤ s.env x := by
    intro x
    induction h with
    | refl => exact le_refl _
    | tail t u _ hst ih =>
      cases hst with
      | mk e rest q q' hq he hp => exact le_trans ih (le_exec O hO _ _ _)
  rw [h0.1] at hup
  refine ⟨fun i x c h1 h2 => ?_, fun i x c h1 h2 => ?_, fun i x c h1 h2 => ?_⟩ <;>
    refine le_trans ?_ (hup x) <;> refine le_trans ?_ (le_writeAll O hO _ _ _ x)
  · refine le_trans ?_ (le_writeAll O hO _ _ _ x)
    refine le_trans ?_ (le_writeAll O hO _ _ _ x)
    exact written_le_writeAll O hO _ _ _ x i c h1 h2
  · refine le_trans ?_ (le_writeAll O hO _ _ _ x)
    exact written_le_writeAll O hO _ _ _ x i c h1 h2
  · exact written_le_writeAll O hO _ _ _ x i c h1 h2

/-! ### C24: the reduced state -/

/-- The state reported for an equation does not change when the rule is applied again. -/
def StateIdem (O : CellOps C L) (q : Eqn C L S) : Prop :=
  ∀ env, (exec O (exec O env q).1 q).2.2.2 = (exec O env q).2.2.2

structure SInv [SemilatticeSup C] (O : CellOps C L) (J : Jaxpr C L S) (s0 s : St C S) : Prop where
  here : ∀ (e : Nat) (q : Eqn C L S), J.eqns[e]? = some q → e ∈ s.queue ∨
    s.states e = some (q.rule (q.ins.map (read O s.env)) (q.outs.map (read O s.env))).2.2 ∨
    (s.states e = none ∧ e ∉ s0.queue ∧ ∀ x, VarOf q x → s.env x = s0.env x)
  visited : ∀ (e : Nat) (q : Eqn C L S), J.eqns[e]? = some q → s.states e ≠ none → e ∈ s0.queue ∨
    ∃ x, VarOf q x ∧ s.env x ≠ s0.env x

theorem SInv.steps [SemilatticeSup C] (O : CellOps C L) (hO : Lawful O) {J : Jaxpr C L S} (hs : Sized J)
    (hi : ∀ q ∈ J.eqns, Idem O q) (hst : ∀ q ∈ J.eqns, StateIdem O q)
    {s0 s : St C S} (h0 : ∀ i, s0.states i = none) (h : Steps O J s0 s) : SInv O J s0 s := by
  induction h with
  | refl =>
    refine ⟨fun e q _ => ?_, fun e q _ h => absurd (h0 e) h⟩
    by_cases h : e ∈ s0.queue
    · exact .inl h
    · exact .inr (.inr ⟨h0 e, h, fun x _ => rfl⟩)
  | tail s t hss hstep ih =>
    have hinv := Inv.steps O hO hs hi hss
    cases hstep with
    | mk e rest q q' hq he hp =>
      have hqm : q ∈ J.eqns := List.mem_of_getElem? he
      refine ⟨?_, ?_⟩
      · intro e' p hp'
        by_cases hee : e' = e
        · subst hee
          obtain rfl : p = q := by rw [he] at hp'; exact (Option.some.inj hp').symm
          refine .inr (.inl ?_)
          simp only [if_true]
          rw [← hst p hqm s.env]
          rfl
        · simp only [if_neg hee]
          by_cases hch : ∃ x, VarOf p x ∧ (exec O s.env q).1 x ≠ s.env x
          · obtain ⟨x, hx, hne⟩ := hch
            exact .inl ((hp.mem e').2 (.inr ⟨hee, x, changed_progressed O hO hs hqm _ _ hne, p, hp', hx⟩))
          · have hsame : ∀ x, VarOf p x → s.env x = (exec O s.env q).1 x := by
              intro x hx
              by_contra hne
              exact hch ⟨x, hx, fun hh => hne hh.symm⟩
            rcases ih.here e' p hp' with h1 | h1 | ⟨h1, h2, h3⟩
            · left
              rw [hq] at h1
              rcases List.mem_cons.1 h1 with h1 | h1
              · exact absurd h1 hee
              · exact (hp.mem e').2 (.inl h1)
            · refine .inr (.inl ?_)
              rw [h1, map_read_congr O p.ins _ _ (fun x hx => hsame x (varOf_left hx)),
                map_read_congr O p.outs _ _ (fun x hx => hsame x (varOf_right hx))]
            · exact .inr (.inr ⟨h1, h2, fun x hx => by rw [← h3 x hx]; exact (hsame x hx).symm⟩)
      · intro e' p hp' hne
        have hgrow : (∃ x, VarOf p x ∧ s.env x ≠ s0.env x) → ∃ x, VarOf p x ∧ (exec O s.env q).1 x ≠ s0.env x := by
          rintro ⟨x, hx, hne⟩
          refine ⟨x, hx, fun heq => hne ?_⟩
          exact le_antisymm (by rw [← heq]; exact le_exec O hO _ _ _) (hinv.above x)
        by_cases hee : e' = e
        · subst hee
          rcases hinv.woken e' p hp' (by rw [hq]; simp) with h1 | h1
          · exact .inl h1
          · exact .inr (hgrow h1)
        · simp only [if_neg hee] at hne
          rcases ih.visited e' p hp' hne with h1 | h1
          · exact .inl h1
          · exact .inr (hgrow h1)

/-- C24.  The state recorded for an equation is the one its rule reports in the final environment, for exactly
the equations that were queued initially or have a variable that gained information. -/
theorem propagate_states [SemilatticeSup C] (O : CellOps C L) (hO : Lawful O) (J : Jaxpr C L S) (hs : Sized J)
    (hi : ∀ q ∈ J.eqns, Idem O q) (hst : ∀ q ∈ J.eqns, StateIdem O q)
    (s0 s : St C S) (h0 : ∀ i, s0.states i = none) (h : Steps O J s0 s) (hq : s.queue = [])
    (e : Nat) (q : Eqn C L S) (he : J.eqns[e]? = some q) :
    ((e ∈ s0.queue ∨ ∃ x, VarOf q x ∧ s.env x ≠ s0.env x) →
      s.states e = some (q.rule (q.ins.map (read O s.env)) (q.outs.map (read O s.env))).2.2) ∧
    (¬ (e ∈ s0.queue ∨ ∃ x, VarOf q x ∧ s.env x ≠ s0.env x) → s.states e = none) := by
  have hinv := SInv.steps O hO hs hi hst h0 h
  refine ⟨fun hor => ?_, fun hno => ?_⟩
  · rcases hinv.here e q he with h1 | h1 | ⟨-, h2, h3⟩
    · rw [hq] at h1; simp at h1
    · exact h1
    · rcases hor with h4 | ⟨x, hx, hne⟩
      · exact absurd h4 h2
      · exact absurd (h3 x hx) hne
  · by_contra hne
    exact hno (hinv.visited e q he hne)

/-- C24.  The reduction over the states of the equations does not depend on the order either. -/
theorem propagate_reduced_state_order_independent [SemilatticeSup C] {R : Type} (O : CellOps C L) (hO : Lawful O)
    (J : Jaxpr C L S) (hs : Sized J) (hi : ∀ q ∈ J.eqns, Idem O q) (hm : ∀ q ∈ J.eqns, Monotone' q)
    (hst : ∀ q ∈ J.eqns, StateIdem O q)
    (consts ins outs : List C) (s0 s t0 t : St C S)
    (h0 : Init O J consts ins outs s0) (h0' : Init O J consts ins outs t0)
    (h : Steps O J s0 s) (h' : Steps O J t0 t) (hq : s.queue = []) (hq' : t.queue = [])
    (reducer : Env C → Eqn C L S → R → Option S → R) (initial : R) :
    reduceStates reducer J s initial = reduceStates reducer J t initial := by
  have henv := propagate_order_independent O hO J hs hi hm consts ins outs s0 s t0 t h0 h0' h h' hq hq'
  have hstates : ∀ (e : Nat) (q : Eqn C L S), J.eqns[e]? = some q → s.states e = t.states e := by
    intro e q he
    have h1 := propagate_states O hO J hs hi hst s0 s h0.2.2 h hq e q he
    have h2 := propagate_states O hO J hs hi hst t0 t h0'.2.2 h' hq' e q he
    have hmem : e ∈ s0.queue ↔ e ∈ t0.queue := by rw [h0.2.1.2, h0'.2.1.2]
    have hse : s0.env = t0.env := by rw [h0.1, h0'.1]
    rw [hmem, henv, hse] at h1
    by_cases hor : e ∈ t0.queue ∨ ∃ x, VarOf q x ∧ t.env x ≠ t0.env x
    · rw [h1.1 hor, h2.1 hor]
    · rw [h1.2 hor, h2.2 hor]
  unfold reduceStates
  rw [henv]
  have : ∀ (l : List (Eqn C L S × Nat)) (r : R), (∀ p ∈ l, J.eqns[p.2]? = some p.1) →
      l.foldl (fun r p => reducer t.env p.1 r (s.states p.2)) r =
      l.foldl (fun r p => reducer t.env p.1 r (t.states p.2)) r := by
    intro l
    induction l with
    | nil => intro r _; rfl
    | cons p l ih =>
      intro r hl
      simp only [List.foldl_cons]
      rw [hstates p.2 p.1 (hl p (by simp))]
      exact ih _ (fun p hp => hl p (by simp [hp]))
  apply this
  rintro ⟨q, e⟩ hp
  exact List.mem_zipIdx_iff_getElem?.1 hp

/-! ### C25: soundness -/

/-- What the rules and cells must guarantee for `Desc x c` ("cell `c` is a true description of variable `x`")
and `DescLit v c` (of the literal `v`). -/
structure SoundFor (O : CellOps C L) (J : Jaxpr C L S) (Desc : Nat → C → Prop) (DescLit : L → C → Prop) : Prop where
  join : ∀ x a b, Desc x a → Desc x b → Desc x (O.join a b)
  unknown : ∀ x, Desc x (O.unknown x)
  lit : ∀ v, DescLit v (O.new v)
  rule : ∀ q ∈ J.eqns, ∀ i o,
    List.Forall₂ (fun a c => match a with | .lit v => DescLit v c | .var x => Desc x c | .drop x => Desc x c) q.ins i →
    List.Forall₂ (fun a c => match a with | .lit v => DescLit v c | .var x => Desc x c | .drop x => Desc x c) q.outs o →
    (∀ (k x : Nat) (c : C), q.ins[k]? = some (Atom.var x) → (q.rule i o).1[k]? = some c → Desc x c) ∧
    (∀ (k x : Nat) (c : C), q.outs[k]? = some (Atom.var x) → (q.rule i o).2.1[k]? = some c → Desc x c)

theorem writeAll_desc (O : CellOps C L) (Desc : Nat → C → Prop)
    (hj : ∀ x a b, Desc x a → Desc x b → Desc x (O.join a b)) (env : Env C) (as : List (Atom L)) (cs : List C)
    (he : ∀ x, Desc x (env x))
    (hc : ∀ (k x : Nat) (c : C), as[k]? = some (Atom.var x) → cs[k]? = some c → Desc x c) (x : Nat) :
    Desc x ((writeAll O env as cs).1 x) := by
  induction as generalizing env cs with
  | nil => cases cs <;> exact he x
  | cons a as ih =>
    obtain _ | ⟨c, cs⟩ := cs
    · exact he x
    · simp only [writeAll]
      apply ih
      · intro y
        cases a with
        | lit v => exact he y
        | drop z => exact he y
        | var z =>
          by_cases hyz : y = z
          · subst hyz; simpa [write] using hj y _ _ (he y) (hc 0 y c (by simp) (by simp))
          · simpa [write, hyz] using he y
      · intro k y d h1 h2
        exact hc (k + 1) y d (by simpa using h1) (by simpa using h2)

/-- C25.  If the given cells are true descriptions and the rules, `join`, `unknown` and `new` only produce true
descriptions, then at every point of every run — in particular at the end — every cell is one. -/
theorem propagate_sound (O : CellOps C L) (J : Jaxpr C L S) (Desc : Nat → C → Prop) (DescLit : L → C → Prop)
    (hd : SoundFor O J Desc DescLit) (consts ins outs : List C)
    (hc : ∀ (k x : Nat) (c : C), J.constvars[k]? = some (Atom.var x) → consts[k]? = some c → Desc x c)
    (hin : ∀ (k x : Nat) (c : C), J.invars[k]? = some (Atom.var x) → ins[k]? = some c → Desc x c)
    (hout : ∀ (k x : Nat) (c : C), J.outvars[k]? = some (Atom.var x) → outs[k]? = some c → Desc x c)
    (s0 s : St C S) (h0 : Init O J consts ins outs s0) (h : Steps O J s0 s) (x : Nat) : Desc x (s.env x) := by
  have hinit : ∀ x, Desc x (s0.env x) := by
    rw [h0.1]
    unfold initEnv
    refine writeAll_desc O Desc hd.join _ _ _ (writeAll_desc O Desc hd.join _ _ _
      (writeAll_desc O Desc hd.join _ _ _ (writeAll_desc O Desc hd.join _ _ _ hd.unknown hc) hin) hout) ?_
    intro k x c h1 h2
    rw [List.getElem?_map, h1] at h2
    simp only [Option.map_some, Option.some.injEq] at h2
    rw [← h2]
    exact hd.unknown x
  induction h generalizing x with
  | refl => exact hinit x
  | tail t u _ hst ih =>
    cases hst with
    | mk e rest q q' hq he hp =>
      have hqm : q ∈ J.eqns := List.mem_of_getElem? he
      have hread : ∀ as : List (Atom L), List.Forall₂
          (fun a c => match a with | .lit v => DescLit v c | .var x => Desc x c | .drop x => Desc x c) as
          (as.map (read O t.env)) := by
        intro as
        induction as with
        | nil => exact .nil
        | cons a as iha =>
          refine .cons ?_ iha
          cases a with
          | lit v => exact hd.lit v
          | var y => exact ih y
          | drop y => exact ih y
      obtain ⟨r1, r2⟩ := hd.rule q hqm _ _ (hread q.ins) (hread q.outs)
      exact writeAll_desc O Desc hd.join _ _ _ (writeAll_desc O Desc hd.join _ _ _ ih r1) r2 x

end Verif.Propagate
