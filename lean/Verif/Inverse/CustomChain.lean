import Verif.Inverse.Custom

/-! Inverting a chain of functions with custom unary inverses. -/
namespace Verif.Inverse.Custom

open Verif.Propagate

variable {V L : Type}

/-- A function with its custom unary inverse and ILDJ. -/
abbrev UDef (V L : Type) := (V → V) × (V → V) × (V → L)

/-- Pulling a value and an ILDJ back through the functions, last one first. -/
def pull (zero : L) (add : L → L → L) (ps : List (UDef V L)) (y : V) : V × L :=
  ps.foldr (fun p c => (p.2.1 c.1, add (p.2.2 c.1) c.2)) (y, zero)

theorem rule_nn (zero : L) (add : L → L → L) (f g : V → V) (l : V → L) :
    rule zero (unary add f g l) [none] [none] = ([none], [none], false) := rfl

theorem rule_ns (zero : L) (add : L → L → L) (f g : V → V) (h : V → L) (v : V) (l : L) :
    rule zero (unary add f g h) [none] [some (v, l)] = ([some (g v, add (h v) l)], [some (v, l)], false) := rfl

theorem rule_ss (zero : L) (add : L → L → L) (f g : V → V) (h : V → L) (c d : V × L) :
    rule zero (unary add f g h) [some c] [some d] = ([some c], [some d], false) := rfl

theorem rule_sn (zero : L) (add : L → L → L) (f g : V → V) (h : V → L) (c : V × L) :
    rule zero (unary add f g h) [some c] [none] = ([some c], [some (f c.1, zero)], false) := rfl

theorem pull_drop (zero : L) (add : L → L → L) (ps : List (UDef V L)) (y : V) (e : Nat) (p : UDef V L) (h : ps[e]? = some p) :
    pull zero add (ps.drop e) y = ((pull zero add (ps.drop (e + 1)) y).1 |> p.2.1, add (p.2.2 (pull zero add (ps.drop (e + 1)) y).1) (pull zero add (ps.drop (e + 1)) y).2) := by
  have he := (List.getElem?_eq_some_iff.1 h).1
  have : ps.drop e = p :: ps.drop (e + 1) := by
    rw [List.drop_eq_getElem_cons he]
    congr 1
    exact (List.getElem?_eq_some_iff.1 h).2
  rw [this]; rfl

theorem chain_eqn (zero : L) (add : L → L → L) (ps : List (UDef V L)) (e : Nat) : ((chain add ps).jaxpr zero).eqns[e]? =
    (ps[e]?).map (fun p => ⟨[Atom.var e], [Atom.var (e + 1)], rule zero (unary add p.1 p.2.1 p.2.2)⟩) := by
  simp only [chain, Prog.jaxpr, List.getElem?_map, List.getElem?_mapIdx, Option.map_map]
  rfl

theorem chain_nbr (zero : L) (add : L → L → L) (ps : List (UDef V L)) (x e : Nat) : Nbr ((chain add ps).jaxpr zero) x e ↔ e < ps.length ∧ (x = e ∨ x = e + 1) := by
  simp only [Nbr, chain_eqn]
  constructor
  · rintro ⟨q, hq, hx⟩
    rcases hp : ps[e]? with _ | p
    · rw [hp] at hq; simp at hq
    · rw [hp] at hq
      simp only [Option.map_some, Option.some.injEq] at hq
      subst hq
      refine ⟨(List.getElem?_eq_some_iff.1 hp).1, ?_⟩
      simpa [Atom.node] using hx
  · rintro ⟨he, hx⟩
    exact ⟨_, by rw [List.getElem?_eq_getElem he]; rfl, by simpa [Atom.node] using hx⟩

/-- The invariant: the cells from position `k` on are known and are what pulling back gives, those before are
unknown, and the equation at the frontier is in the queue. -/
structure ChainInv (zero : L) (add : L → L → L) (ps : List (UDef V L)) (y : V) (k : Nat) (s : St (Cell V L) Bool) : Prop where
  le : k ≤ ps.length
  known : ∀ i, k ≤ i → i ≤ ps.length → s.env i = some (pull zero add (ps.drop i) y)
  unknown : ∀ i < k, s.env i = none
  queued : 0 < k → k - 1 ∈ s.queue

theorem chain_step (zero : L) (add : L → L → L) (ps : List (UDef V L)) (y : V) (k : Nat) (s t : St (Cell V L) Bool) (h : ChainInv zero add ps y k s)
    (hst : Step (ops zero) ((chain add ps).jaxpr zero) s t) : ∃ k', ChainInv zero add ps y k' t := by
  cases hst with
  | mk e rest q q' hq he hp =>
    rw [chain_eqn] at he
    rcases hpe : ps[e]? with _ | p
    · rw [hpe] at he; simp at he
    rw [hpe] at he
    simp only [Option.map_some, Option.some.injEq] at he
    subst he
    have hel := (List.getElem?_eq_some_iff.1 hpe).1
    rcases Nat.lt_trichotomy (e + 1) k with hlt | heq | hgt
    · -- both unknown
      have h0 := h.unknown e (by omega)
      have h1 := h.unknown (e + 1) hlt
      simp only [List.map_cons, List.map_nil, Propagate.read, exec, h0, h1, rule_nn, rule_ns, rule_ss, writeAll, write, ops] at hp ⊢
      simp [progressed, h0, h1] at hp
      cases hp
      refine ⟨k, h.le, ?_, ?_, ?_⟩
      · intro i hi hi'
        have := h.known i hi hi'
        simp only [this]
        have a1 : i ≠ e := by omega
        have a2 : i ≠ e + 1 := by omega
        simp [a1, a2]
      · intro i hi
        simp
        exact fun _ _ => h.unknown i hi
      · intro hk
        have := h.queued hk
        rw [hq] at this
        rcases List.mem_cons.1 this with h' | h'
        · omega
        · exact h'
    · -- the frontier
      have h0 := h.unknown e (by omega)
      have h1 := h.known (e + 1) (by omega) (by omega)
      have hpull := pull_drop zero add ps y e p hpe
      generalize pull zero add (ps.drop (e + 1)) y = c at hpull h1
      obtain ⟨v, l⟩ := c
      simp only [List.map_cons, List.map_nil, Propagate.read, exec, h0, h1, rule_nn, rule_ns, rule_ss, writeAll, write, ops] at hp ⊢
      simp [progressed, h0, h1, Atom.node] at hp
      refine ⟨e, by omega, ?_, ?_, ?_⟩
      · intro i hi hi'
        by_cases a1 : i = e
        · subst a1; simp [hpull]
        · by_cases a2 : i = e + 1
          · subst a2; simp [h1]
            have := h.known (e + 1) (by omega) (by omega)
            rw [h1] at this; exact Option.some.inj this
          · have := h.known i (by omega) hi'
            simp [a1, a2, this]
      · intro i hi
        have a1 : i ≠ e := by omega
        have a2 : i ≠ e + 1 := by omega
        simp [a1, a2]
        exact h.unknown i (by omega)
      · intro he0
        refine (hp.mem (e - 1)).2 (.inr ⟨by omega, e, by simp, ?_⟩)
        rw [chain_nbr]; omega
    · -- both known
      have h0 := h.known e (by omega) (by omega)
      have h1 := h.known (e + 1) (by omega) (by omega)
      have e0 := h0
      have e1 := h1
      generalize pull zero add (ps.drop e) y = c at h0
      generalize pull zero add (ps.drop (e + 1)) y = d at h1
      obtain ⟨v, l⟩ := c
      obtain ⟨v', l'⟩ := d
      simp only [List.map_cons, List.map_nil, Propagate.read, exec, h0, h1, rule_nn, rule_ns, rule_ss, writeAll, write, ops] at hp ⊢
      simp [progressed, h0, h1] at hp
      cases hp
      refine ⟨k, h.le, ?_, ?_, ?_⟩
      · intro i hi hi'
        have := h.known i hi hi'
        rw [← this]
        by_cases a1 : i = e
        · subst a1; simp [h0]
        · by_cases a2 : i = e + 1
          · subst a2; simp [h1]
          · simp [a1, a2]
      · intro i hi
        have a1 : i ≠ e := by omega
        have a2 : i ≠ e + 1 := by omega
        simp [a1, a2]
        exact h.unknown i hi
      · intro hk
        have := h.queued hk
        rw [hq] at this
        rcases List.mem_cons.1 this with h' | h'
        · omega
        · exact h'

theorem chain_init (zero : L) (add : L → L → L) (ps : List (UDef V L)) (y : V) (s : St (Cell V L) Bool)
    (h : Init (ops zero) ((chain add ps).jaxpr zero) [] [none] [some (y, zero)] s) : ChainInv zero add ps y ps.length s := by
  obtain ⟨henv, hq, -⟩ := h
  have hval : ∀ i, s.env i = if i = ps.length then some (y, zero) else none := by
    intro i
    rw [henv]
    have hw : ∀ (as : List (Atom V)) (env : Env (Cell V L)) (cs : List (Cell V L)),
        (∀ (j x : Nat) (c : (Cell V L)), as[j]? = some (Atom.var x) → cs[j]? = some c → c = none) →
        (writeAll (ops zero) env as cs).1 = env := by
      intro as
      induction as with
      | nil => intro env cs _; cases cs <;> rfl
      | cons a as ih =>
        intro env cs hall
        obtain _ | ⟨c, cs⟩ := cs
        · rfl
        · simp only [writeAll]
          rw [ih]
          · cases a with
            | lit v => rfl
            | drop x => rfl
            | var x =>
              have := hall 0 x c (by simp) (by simp)
              subst this
              funext z
              simp only [write, ops]
              by_cases hz : z = x
              · subst hz; simp
              · simp [hz]
          · intro j x c h1 h2
            exact hall (j + 1) x c (by simpa using h1) (by simpa using h2)
    unfold initEnv
    rw [hw]
    · simp only [chain, Prog.jaxpr, writeAll, write, ops]
      by_cases hi : i = ps.length
      · subst hi; simp
      · by_cases hi0 : i = 0
        · subst hi0; simp [hi]
        · simp [hi, hi0]
    · intro j x c h1 h2
      rw [List.getElem?_map, h1] at h2
      simp only [Option.map_some, Option.some.injEq] at h2
      rw [← h2]; rfl
  refine ⟨Nat.le_refl _, ?_, ?_, ?_⟩
  · intro i h1 h2
    have : i = ps.length := by omega
    subst this
    rw [hval]; simp [pull]
  · intro i hi
    rw [hval, if_neg (by omega)]
  · intro hk
    rw [hq.2]
    refine ⟨ps.length, ?_, ?_⟩
    · simp [chain, Prog.jaxpr, Atom.node]
    · rw [chain_nbr]; omega

/-- Every run of `inverse` on a chain of unary primitives succeeds and returns the value and ILDJ obtained by
pulling the output back through the primitives. -/
theorem chain_propRun (zero : L) (add : L → L → L) (ps : List (UDef V L)) (y : V) (res : Option (List (V × L))) :
    PropRun zero (chain add ps) [y] res ↔ res = some [pull zero add ps y] := by
  have hbk : ∀ s0 s, Init (ops zero) ((chain add ps).jaxpr zero) [] [none] [some (y, zero)] s0 →
      Steps (ops zero) ((chain add ps).jaxpr zero) s0 s → ∃ k, ChainInv zero add ps y k s := by
    intro s0 s h0 hs
    induction hs with
    | refl => exact ⟨_, chain_init zero add ps y s0 h0⟩
    | tail t u _ hst ih =>
      obtain ⟨k, hk⟩ := ih
      exact chain_step zero add ps y k t u hk hst
  have hfin : ∀ s0 s, Init (ops zero) ((chain add ps).jaxpr zero) [] [none] [some (y, zero)] s0 →
      Steps (ops zero) ((chain add ps).jaxpr zero) s0 s → s.queue = [] → s.env 0 = some (pull zero add ps y) := by
    intro s0 s h0 hs hq
    obtain ⟨k, hk⟩ := hbk s0 s h0 hs
    have hk0 : k = 0 := by
      by_contra hne
      have := hk.queued (by omega)
      rw [hq] at this; simp at this
    subst hk0
    have := hk.known 0 (Nat.le_refl _) (Nat.zero_le _)
    simpa using this
  constructor
  · rintro ⟨s0, s, h0, hs, hq, rfl⟩
    have := hfin s0 s (by simpa [chain] using h0) hs hq
    simp [chain, Propagate.read, this]
  · rintro rfl
    have hsized : Sized ((chain add ps).jaxpr zero) := by
      intro q hq i o hi ho
      obtain ⟨e, he⟩ := List.mem_iff_getElem?.1 hq
      rw [chain_eqn] at he
      rcases hpe : ps[e]? with _ | p
      · rw [hpe] at he; simp at he
      rw [hpe] at he
      simp only [Option.map_some, Option.some.injEq] at he
      subst he
      simp only [List.length_cons, List.length_nil] at hi ho ⊢
      obtain ⟨a, rfl⟩ := List.length_eq_one_iff.1 hi
      obtain ⟨b, rfl⟩ := List.length_eq_one_iff.1 ho
      rcases a with _ | ⟨a1, a2⟩ <;> rcases b with _ | ⟨b1, b2⟩ <;> simp [rule_nn, rule_ns, rule_ss, rule_sn]
    let q0 : List Nat := (List.range ps.length).filter (fun e => decide (e = 0 ∨ e + 1 = ps.length))
    let s0 : St (Cell V L) Bool := ⟨initEnv (ops zero) ((chain add ps).jaxpr zero) [] [none] [some (y, zero)], q0, fun _ => none⟩
    have hinit : Init (ops zero) ((chain add ps).jaxpr zero) [] [none] [some (y, zero)] s0 := by
      refine ⟨rfl, ⟨List.nodup_range.filter _, fun e => ?_⟩, fun _ => rfl⟩
      simp only [s0, q0, List.mem_filter, List.mem_range, decide_eq_true_eq, chain_nbr]
      simp only [chain, Prog.jaxpr, List.cons_append, List.nil_append, List.append_nil, List.map_cons, Atom.node,
        List.map_nil, List.mem_cons, Option.some.injEq, List.not_mem_nil, or_false]
      constructor
      · rintro ⟨h1, h2 | h2⟩
        · exact ⟨0, .inr rfl, h1, .inl h2.symm⟩
        · exact ⟨ps.length, .inl rfl, h1, .inr h2.symm⟩
      · rintro ⟨x, h1, h2, h3⟩
        refine ⟨h2, ?_⟩
        omega
    obtain ⟨t, ht, hq⟩ := propagate_completes (ops zero) ((chain add ps).jaxpr zero) hsized (fun c => if c.isSome then 0 else 1)
      (by intro a b; cases a <;> cases b <;> simp [ops])
      (by intro a b; cases a <;> cases b <;> simp [ops]) [] [none] [some (y, zero)] s0 s0 hinit (.refl _)
    refine ⟨s0, t, by simpa [chain] using hinit, ht, hq, ?_⟩
    have := hfin s0 t hinit ht hq
    simp [chain, Propagate.read, this]

/-- The states of the equations come from their rules. -/
theorem states_false (zero : L) (J : Jaxpr (Cell V L) V Bool) (hJ : ∀ q ∈ J.eqns, ∀ i o, (q.rule i o).2.2 = false)
    (consts ins outs : List (Cell V L)) (s0 s : St (Cell V L) Bool) (h0 : Init (ops zero) J consts ins outs s0)
    (hs : Steps (ops zero) J s0 s) : ∀ e, s.states e ≠ some true := by
  induction hs with
  | refl => intro e; rw [h0.2.2]; simp
  | tail t u _ hst ih =>
    intro e
    cases hst with
    | mk e' rest q q' hq he hp =>
      simp only
      split
      · have := hJ q (List.mem_of_getElem? he) (q.ins.map (Propagate.read (ops zero) t.env))
          (q.outs.map (Propagate.read (ops zero) t.env))
        simp only [exec, this]
        simp
      · exact ih e

/-- When no rule raises, the calls are the complete runs of the propagation. -/
theorem inverseRun_clean (zero : L) (P : Prog V L)
    (hJ : ∀ q ∈ (P.jaxpr zero).eqns, ∀ i o, (q.rule i o).2.2 = false) (ys : List V) (out : Outcome V L) :
    InverseRun zero P ys out ↔ ∃ res, PropRun zero P ys res ∧
      out = match res with | some r => .returns r | none => .valueError := by
  constructor
  · rintro ⟨s0, s, h0, hs, ⟨hq, rfl⟩ | ⟨u, e, hst, hu, -⟩⟩
    · exact ⟨_, ⟨s0, s, h0, hs.steps, hq, rfl⟩, rfl⟩
    · exact absurd hu (states_false zero _ hJ _ _ _ s0 u h0 (.tail _ _ _ hs.steps hst) e)
  · rintro ⟨res, ⟨s0, s, h0, hs, hq, rfl⟩, rfl⟩
    refine ⟨s0, s, h0, ?_, .inl ⟨hq, rfl⟩⟩
    clear hq
    induction hs with
    | refl => exact .refl _
    | tail t u ht hst ih =>
      exact .tail _ _ _ ih hst (states_false zero _ hJ _ _ _ s0 u h0 (.tail _ _ _ ht hst))

/-- The rule of `def_inverse_unary` never raises. -/
theorem rule_unary (zero : L) (add : L → L → L) (f g : V → V) (h : V → L) (i o : List (Cell V L)) :
    (rule zero (unary add f g h) i o).2.2 = false := by
  simp only [rule]
  split
  · split
    · rfl
    · rename_i new hnew
      simp only [unary] at hnew
      split at hnew
      · simp only [Option.some.injEq] at hnew; subst hnew; rfl
      · simp at hnew
  · split <;> rfl

theorem chain_run (zero : L) (add : L → L → L) (ps : List (UDef V L)) (y : V) (out : Outcome V L) :
    InverseRun zero (chain add ps) [y] out ↔ out = .returns [pull zero add ps y] := by
  rw [inverseRun_clean]
  · constructor
    · rintro ⟨res, h, rfl⟩
      rw [(chain_propRun zero add ps y res).1 h]
    · rintro rfl
      exact ⟨_, (chain_propRun zero add ps y _).2 rfl, rfl⟩
  · intro q hq i o
    obtain ⟨e, he⟩ := List.mem_iff_getElem?.1 hq
    rw [chain_eqn] at he
    rcases hpe : ps[e]? with _ | p
    · rw [hpe] at he; simp at he
    rw [hpe] at he
    simp only [Option.map_some, Option.some.injEq] at he
    subst he
    exact rule_unary zero add _ _ _ i o

end Verif.Inverse.Custom
