import Verif.Inverse.Model
import Verif.Propagate.Props

/-! Inverting a chain of unary primitives: every run of the propagation gives the composition of the inverses. -/
namespace Verif.Inverse

open Verif.Propagate

/-- The program `x_{i+1} = p_i x_i`, with `x_0` the input and `x_n` the output. -/
def chainProg (ps : List Un) : Prog :=
  ⟨[.var 0], [.var ps.length], ps.mapIdx (fun i p => (Op.un p, [Atom.var i], [Atom.var (i + 1)]))⟩

/-- Pulling a value and an ILDJ back through the primitives, last one first. -/
noncomputable def pull (ps : List Un) (y : F) : F × F :=
  ps.foldr (fun p c => (c.1.bind p.g, p.ld c.2 c.1)) (y, some 0)

theorem pull_drop (ps : List Un) (y : F) (e : Nat) (p : Un) (h : ps[e]? = some p) :
    pull (ps.drop e) y = ((pull (ps.drop (e + 1)) y).1.bind p.g, p.ld (pull (ps.drop (e + 1)) y).2 (pull (ps.drop (e + 1)) y).1) := by
  have he := (List.getElem?_eq_some_iff.1 h).1
  have : ps.drop e = p :: ps.drop (e + 1) := by
    rw [List.drop_eq_getElem_cons he]
    congr 1
    exact (List.getElem?_eq_some_iff.1 h).2
  rw [this]; rfl

theorem chain_eqn (ps : List Un) (e : Nat) : (chainProg ps).jaxpr.eqns[e]? =
    (ps[e]?).map (fun p => ⟨[Atom.var e], [Atom.var (e + 1)], unRule p⟩) := by
  simp only [chainProg, Prog.jaxpr, List.getElem?_map, List.getElem?_mapIdx, Option.map_map]
  rfl

theorem chain_nbr (ps : List Un) (x e : Nat) : Nbr (chainProg ps).jaxpr x e ↔ e < ps.length ∧ (x = e ∨ x = e + 1) := by
  simp only [Nbr, chain_eqn]
  constructor
  · rintro ⟨q, hq, hx⟩
    rcases hp : ps[e]? with _ | p
    · rw [hp] at hq; simp at hq
    · rw [hp] at hq
      simp only [Option.map_some, Option.some.injEq] at hq
      subst hq
      refine ⟨(List.getElem?_eq_some_iff.1 hp).1, ?_⟩
      simpa [Atom.node] using hx
  · rintro ⟨he, hx⟩
    exact ⟨_, by rw [List.getElem?_eq_getElem he]; rfl, by simpa [Atom.node] using hx⟩

/-- The invariant: the cells from position `k` on are known and are what pulling back gives, those before are
unknown, and the equation at the frontier is in the queue. -/
structure ChainInv (ps : List Un) (y : F) (k : Nat) (s : St ICell Bool) : Prop where
  le : k ≤ ps.length
  known : ∀ i, k ≤ i → i ≤ ps.length → s.env i = some (pull (ps.drop i) y)
  unknown : ∀ i < k, s.env i = none
  queued : 0 < k → k - 1 ∈ s.queue

theorem chain_step (ps : List Un) (y : F) (k : Nat) (s t : St ICell Bool) (h : ChainInv ps y k s)
    (hst : Step iOps (chainProg ps).jaxpr s t) : ∃ k', ChainInv ps y k' t := by
  cases hst with
  | mk e rest q q' hq he hp =>
    rw [chain_eqn] at he
    rcases hpe : ps[e]? with _ | p
    · rw [hpe] at he; simp at he
    rw [hpe] at he
    simp only [Option.map_some, Option.some.injEq] at he
    subst he
    have hel := (List.getElem?_eq_some_iff.1 hpe).1
    rcases Nat.lt_trichotomy (e + 1) k with hlt | heq | hgt
    · -- both unknown
      have h0 := h.unknown e (by omega)
      have h1 := h.unknown (e + 1) hlt
      simp only [List.map_cons, List.map_nil, Propagate.read, exec, h0, h1, unRule, writeAll, write, iOps] at hp ⊢
      simp [progressed, h0, h1] at hp
      cases hp
      refine ⟨k, h.le, ?_, ?_, ?_⟩
      · intro i hi hi'
        have := h.known i hi hi'
        simp only [this]
        have a1 : i ≠ e := by omega
        have a2 : i ≠ e + 1 := by omega
        simp [a1, a2]
      · intro i hi
        simp
        exact fun _ _ => h.unknown i hi
      · intro hk
        have := h.queued hk
        rw [hq] at this
        rcases List.mem_cons.1 this with h' | h'
        · omega
        · exact h'
    · -- the frontier
      have h0 := h.unknown e (by omega)
      have h1 := h.known (e + 1) (by omega) (by omega)
      have hpull := pull_drop ps y e p hpe
      generalize pull (ps.drop (e + 1)) y = c at hpull h1
      obtain ⟨v, l⟩ := c
      simp only [List.map_cons, List.map_nil, Propagate.read, exec, h0, h1, unRule, writeAll, write, iOps] at hp ⊢
      simp [progressed, h0, h1, Atom.node] at hp
      refine ⟨e, by omega, ?_, ?_, ?_⟩
      · intro i hi hi'
        by_cases a1 : i = e
        · subst a1; simp [hpull]
        · by_cases a2 : i = e + 1
          · subst a2; simp [h1]
            have := h.known (e + 1) (by omega) (by omega)
            rw [h1] at this; exact Option.some.inj this
          · have := h.known i (by omega) hi'
            simp [a1, a2, this]
      · intro i hi
        have a1 : i ≠ e := by omega
        have a2 : i ≠ e + 1 := by omega
        simp [a1, a2]
        exact h.unknown i (by omega)
      · intro he0
        refine (hp.mem (e - 1)).2 (.inr ⟨by omega, e, by simp, ?_⟩)
        rw [chain_nbr]; omega
    · -- both known
      have h0 := h.known e (by omega) (by omega)
      have h1 := h.known (e + 1) (by omega) (by omega)
      have e0 := h0
      have e1 := h1
      generalize pull (ps.drop e) y = c at h0
      generalize pull (ps.drop (e + 1)) y = d at h1
      obtain ⟨v, l⟩ := c
      obtain ⟨v', l'⟩ := d
      simp only [List.map_cons, List.map_nil, Propagate.read, exec, h0, h1, unRule, writeAll, write, iOps] at hp ⊢
      simp [progressed, h0, h1] at hp
      cases hp
      refine ⟨k, h.le, ?_, ?_, ?_⟩
      · intro i hi hi'
        have := h.known i hi hi'
        rw [← this]
        by_cases a1 : i = e
        · subst a1; simp [h0]
        · by_cases a2 : i = e + 1
          · subst a2; simp [h1]
          · simp [a1, a2]
      · intro i hi
        have a1 : i ≠ e := by omega
        have a2 : i ≠ e + 1 := by omega
        simp [a1, a2]
        exact h.unknown i hi
      · intro hk
        have := h.queued hk
        rw [hq] at this
        rcases List.mem_cons.1 this with h' | h'
        · omega
        · exact h'

theorem chain_init (ps : List Un) (y : F) (s : St ICell Bool)
    (h : Init iOps (chainProg ps).jaxpr [] [none] [some (y, some 0)] s) : ChainInv ps y ps.length s := by
  obtain ⟨henv, hq, -⟩ := h
  have hval : ∀ i, s.env i = if i = ps.length then some (y, some 0) else none := by
    intro i
    rw [henv]
    have hw : ∀ (as : List (Atom F)) (env : Env ICell) (cs : List ICell),
        (∀ (j x : Nat) (c : ICell), as[j]? = some (Atom.var x) → cs[j]? = some c → c = none) →
        (writeAll iOps env as cs).1 = env := by
      intro as
      induction as with
      | nil => intro env cs _; cases cs <;> rfl
      | cons a as ih =>
        intro env cs hall
        obtain _ | ⟨c, cs⟩ := cs
        · rfl
        · simp only [writeAll]
          rw [ih]
          · cases a with
            | lit v => rfl
            | drop x => rfl
            | var x =>
              have := hall 0 x c (by simp) (by simp)
              subst this
              funext z
              simp only [write, iOps]
              by_cases hz : z = x
              · subst hz; simp
              · simp [hz]
          · intro j x c h1 h2
            exact hall (j + 1) x c (by simpa using h1) (by simpa using h2)
    unfold initEnv
    rw [hw]
    · simp only [chainProg, Prog.jaxpr, writeAll, write, iOps]
      by_cases hi : i = ps.length
      · subst hi; simp
      · by_cases hi0 : i = 0
        · subst hi0; simp [hi]
        · simp [hi, hi0]
    · intro j x c h1 h2
      rw [List.getElem?_map, h1] at h2
      simp only [Option.map_some, Option.some.injEq] at h2
      rw [← h2]; rfl
  refine ⟨Nat.le_refl _, ?_, ?_, ?_⟩
  · intro i h1 h2
    have : i = ps.length := by omega
    subst this
    rw [hval]; simp [pull]
  · intro i hi
    rw [hval, if_neg (by omega)]
  · intro hk
    rw [hq.2]
    refine ⟨ps.length, ?_, ?_⟩
    · simp [chainProg, Prog.jaxpr, Atom.node]
    · rw [chain_nbr]; omega

/-- Every run of `inverse` on a chain of unary primitives succeeds and returns the value and ILDJ obtained by
pulling the output back through the primitives. -/
theorem chain_run (ps : List Un) (y : F) (res : Option (List (F × F))) :
    InverseRun (chainProg ps) [y] res ↔ res = some [pull ps y] := by
  have hbk : ∀ s0 s, Init iOps (chainProg ps).jaxpr [] [none] [some (y, some 0)] s0 →
      Steps iOps (chainProg ps).jaxpr s0 s → ∃ k, ChainInv ps y k s := by
    intro s0 s h0 hs
    induction hs with
    | refl => exact ⟨_, chain_init ps y s0 h0⟩
    | tail t u _ hst ih =>
      obtain ⟨k, hk⟩ := ih
      exact chain_step ps y k t u hk hst
  have hfin : ∀ s0 s, Init iOps (chainProg ps).jaxpr [] [none] [some (y, some 0)] s0 →
      Steps iOps (chainProg ps).jaxpr s0 s → s.queue = [] → s.env 0 = some (pull ps y) := by
    intro s0 s h0 hs hq
    obtain ⟨k, hk⟩ := hbk s0 s h0 hs
    have hk0 : k = 0 := by
      by_contra hne
      have := hk.queued (by omega)
      rw [hq] at this; simp at this
    subst hk0
    have := hk.known 0 (Nat.le_refl _) (Nat.zero_le _)
    simpa using this
  constructor
  · rintro ⟨s0, s, h0, hs, hq, rfl⟩
    have := hfin s0 s (by simpa [chainProg] using h0) hs hq
    simp [chainProg, Propagate.read, this]
  · rintro rfl
    have hsized : Sized (chainProg ps).jaxpr := by
      intro q hq i o hi ho
      obtain ⟨e, he⟩ := List.mem_iff_getElem?.1 hq
      rw [chain_eqn] at he
      rcases hpe : ps[e]? with _ | p
      · rw [hpe] at he; simp at he
      rw [hpe] at he
      simp only [Option.map_some, Option.some.injEq] at he
      subst he
      simp only [List.length_cons, List.length_nil] at hi ho ⊢
      obtain ⟨a, rfl⟩ := List.length_eq_one_iff.1 hi
      obtain ⟨b, rfl⟩ := List.length_eq_one_iff.1 ho
      rcases a with _ | ⟨a1, a2⟩ <;> rcases b with _ | ⟨b1, b2⟩ <;> simp [unRule]
    let q0 : List Nat := (List.range ps.length).filter (fun e => decide (e = 0 ∨ e + 1 = ps.length))
    let s0 : St ICell Bool := ⟨initEnv iOps (chainProg ps).jaxpr [] [none] [some (y, some 0)], q0, fun _ => none⟩
    have hinit : Init iOps (chainProg ps).jaxpr [] [none] [some (y, some 0)] s0 := by
      refine ⟨rfl, ⟨List.nodup_range.filter _, fun e => ?_⟩, fun _ => rfl⟩
      simp only [s0, q0, List.mem_filter, List.mem_range, decide_eq_true_eq, chain_nbr]
      simp only [chainProg, Prog.jaxpr, List.cons_append, List.nil_append, List.append_nil, List.map_cons, Atom.node,
        List.map_nil, List.mem_cons, Option.some.injEq, List.not_mem_nil, or_false]
      constructor
      · rintro ⟨h1, h2 | h2⟩
        · exact ⟨0, .inr rfl, h1, .inl h2.symm⟩
        · exact ⟨ps.length, .inl rfl, h1, .inr h2.symm⟩
      · rintro ⟨x, h1, h2, h3⟩
        refine ⟨h2, ?_⟩
        omega
    obtain ⟨t, ht, hq⟩ := propagate_completes iOps (chainProg ps).jaxpr hsized (fun c => if c.isSome then 0 else 1)
      (by intro a b; cases a <;> cases b <;> simp [iOps])
      (by intro a b; cases a <;> cases b <;> simp [iOps]) [] [none] [some (y, some 0)] s0 s0 hinit (.refl _)
    refine ⟨s0, t, by simpa [chainProg] using hinit, ht, hq, ?_⟩
    have := hfin s0 t hinit ht hq
    simp [chainProg, Propagate.read, this]

end Verif.Inverse
