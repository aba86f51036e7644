import Verif.Inverse.Bijector

/-! C64: inverting compositions of bijectors. -/
namespace Verif.Inverse.Bijector

open Verif.Propagate Verif.Inverse.Custom

variable {V L : Type}

/-- The cells of known parameters. -/
abbrev known (zero : L) (ps : List V) : List (Cell V L) := ps.map (fun v => some (v, zero))

/-- Every call has its parameters. -/
def Fits (cs : List (Call V L × List V)) : Prop := ∀ c ∈ cs, c.2.length = c.1.bij.nparams

theorem known_any (zero : L) (ps : List V) : (known (L := L) zero ps).any (·.isNone) = false := by
  rw [List.any_eq_false]
  intro c hc
  obtain ⟨v, -, rfl⟩ := List.mem_map.1 hc
  simp

theorem rule_eq (zero : L) (add : L → L → L) (c : Call V L) (ps : List V) (hp : ps.length = c.bij.nparams) (a b : Cell V L) :
    rule zero add c (known zero ps ++ [a]) [b] =
      match a, b with
      | none, some (v, l) => (known zero ps ++ [some (c.invFunc v, add l (c.ildjFunc v))], [some (v, l)], false)
      | some (v, l), none => (known zero ps ++ [some (v, l)], [some (c.forwardFunc v, zero)], decide (c.bij.nparams ≠ 0))
      | a, b => (known zero ps ++ [a], [b], true) := by
  have hl : (known (L := L) zero ps).length = c.bij.nparams := by simpa [known] using hp
  have ht : (known zero ps ++ [a]).take c.bij.nparams = known zero ps := by rw [← hl]; exact List.take_left
  have hd : (known zero ps ++ [a]).drop c.bij.nparams = [a] := by rw [← hl]; exact List.drop_left
  simp only [rule, ht, hd, known_any, List.getLast?_singleton]
  rcases a with _ | ⟨v, l⟩ <;> rcases b with _ | ⟨w, m⟩ <;> rfl

theorem writeAll_lits (zero : L) (ps : List V) (env : Env (Cell V L)) (as : List (Atom V)) (cs : List (Cell V L)) :
    writeAll (ops zero) env (ps.map Atom.lit ++ as) (known zero ps ++ cs) =
      ((writeAll (ops zero) env as cs).1, known zero ps ++ (writeAll (ops zero) env as cs).2) := by
  induction ps with
  | nil => rfl
  | cons p ps ih =>
    simp only [known, List.map_cons, List.cons_append, writeAll, write]
    have := ih
    simp only [known] at this
    rw [this]

theorem read_lits (zero : L) (ps : List V) (env : Env (Cell V L)) (e : Nat) :
    (ps.map Atom.lit ++ [Atom.var e]).map (Propagate.read (ops zero) env) = known zero ps ++ [env e] := by
  simp [known, Propagate.read, ops, Function.comp_def]

theorem progressed_lits (zero : L) (ps : List V) (as : List (Atom V)) (old new : List (Cell V L)) :
    progressed (ops zero) (ps.map Atom.lit ++ as) (known zero ps ++ old) (known zero ps ++ new) =
      progressed (ops zero) as old new := by
  induction ps with
  | nil => rfl
  | cons p ps ih =>
    simp only [progressed, known, List.map_cons, List.cons_append, List.zip_cons_cons, List.filter_cons] at ih ⊢
    rw [if_neg (by simp [ops])]
    exact ih

theorem compose_eqn (zero : L) (add : L → L → L) (cs : List (Call V L × List V)) (e : Nat) :
    (compose zero add cs).eqns[e]? = (cs[e]?).map (fun c =>
      ⟨c.2.map Atom.lit ++ [Atom.var e], [Atom.var (e + 1)], rule zero add c.1⟩) := by
  simp only [compose, List.getElem?_mapIdx]

theorem compose_nbr (zero : L) (add : L → L → L) (cs : List (Call V L × List V)) (x e : Nat) :
    Nbr (compose zero add cs) x e ↔ e < cs.length ∧ (x = e ∨ x = e + 1) := by
  simp only [Nbr, compose_eqn]
  constructor
  · rintro ⟨q, hq, hx⟩
    rcases hp : cs[e]? with _ | p
    · rw [hp] at hq; simp at hq
    · rw [hp] at hq
      simp only [Option.map_some, Option.some.injEq] at hq
      subst hq
      refine ⟨(List.getElem?_eq_some_iff.1 hp).1, ?_⟩
      simpa [Atom.node] using hx
  · rintro ⟨he, hx⟩
    exact ⟨_, by rw [List.getElem?_eq_getElem he]; rfl, by simpa [Atom.node] using hx⟩

/-- Pulling a value and an ILDJ back through the calls, last one first. -/
def pull (zero : L) (add : L → L → L) (cs : List (Call V L × List V)) (y : V) : V × L :=
  cs.foldr (fun c r => (c.1.invFunc r.1, add r.2 (c.1.ildjFunc r.1))) (y, zero)

theorem pull_drop (zero : L) (add : L → L → L) (cs : List (Call V L × List V)) (y : V) (e : Nat) (c) (h : cs[e]? = some c) :
    pull zero add (cs.drop e) y = (c.1.invFunc (pull zero add (cs.drop (e + 1)) y).1,
      add (pull zero add (cs.drop (e + 1)) y).2 (c.1.ildjFunc (pull zero add (cs.drop (e + 1)) y).1)) := by
  have he := (List.getElem?_eq_some_iff.1 h).1
  have : cs.drop e = c :: cs.drop (e + 1) := by
    rw [List.drop_eq_getElem_cons he]
    congr 1
    exact (List.getElem?_eq_some_iff.1 h).2
  rw [this]; rfl

/-- The cells from position `k` on are known and are what pulling back gives, those before are unknown. -/
structure At (zero : L) (add : L → L → L) (cs : List (Call V L × List V)) (y : V) (k : Nat) (env : Env (Cell V L)) : Prop where
  le : k ≤ cs.length
  known : ∀ i, k ≤ i → i ≤ cs.length → env i = some (pull zero add (cs.drop i) y)
  unknown : ∀ i < k, env i = none

/-- One iteration, at the frontier or not. -/
theorem step_cases (zero : L) (add : L → L → L) (cs : List (Call V L × List V)) (hf : Fits cs) (y : V) (k : Nat)
    (s t : St (Cell V L) Bool) (h : At zero add cs y k s.env) (hst : Step (ops zero) (compose zero add cs) s t) :
    ∃ e rest, s.queue = e :: rest ∧ e < cs.length ∧
      ((e + 1 = k ∧ At zero add cs y e t.env ∧ t.states e = some false ∧ (∀ i, i ≠ e → t.states i = s.states i) ∧
          Pushes (compose zero add cs) e [e] rest t.queue) ∨
        (e + 1 ≠ k ∧ t.states e = some true)) := by
  cases hst with
  | mk e rest q q' hq he hp =>
    rw [compose_eqn] at he
    rcases hce : cs[e]? with _ | c
    · rw [hce] at he; simp at he
    rw [hce] at he
    simp only [Option.map_some, Option.some.injEq] at he
    subst he
    have hel := (List.getElem?_eq_some_iff.1 hce).1
    have hps := hf c (List.mem_of_getElem? hce)
    refine ⟨e, rest, hq, hel, ?_⟩
    simp only [exec, List.map_cons, List.map_nil, read_lits, Propagate.read, rule_eq zero add c.1 c.2 hps] at hp ⊢
    by_cases hk : e + 1 = k
    · left
      have h0 := h.unknown e (by omega)
      have h1 := h.known (e + 1) (by omega) (by omega)
      have hpull := pull_drop zero add cs y e c hce
      generalize hcell : pull zero add (cs.drop (e + 1)) y = r at hpull h1
      obtain ⟨v, l⟩ := r
      simp only [h0, h1, writeAll_lits, List.append_assoc] at hp ⊢
      refine ⟨hk, ⟨by omega, ?_, ?_⟩, by simp, by intro i hi; simp [hi], ?_⟩
      · intro i hi hi'
        simp only [writeAll, write, ops]
        by_cases a2 : i = e + 1
        · subst a2
          simp [hcell]
        · by_cases a1 : i = e
          · subst a1; simp [hpull]
          · have := h.known i (by omega) hi'
            simp [a1, a2, this]
      · intro i hi
        simp only [writeAll, write, ops]
        have a1 : i ≠ e := by omega
        have a2 : i ≠ e + 1 := by omega
        simp [a1, a2]
        exact h.unknown i (by omega)
      · rw [progressed_lits] at hp
        simp only [writeAll, write, ops, h1] at hp
        simpa [progressed, Atom.node] using hp
    · right
      refine ⟨hk, ?_⟩
      simp only [if_true]
      congr 1
      rcases Nat.lt_or_ge (e + 1) k with hlt | hge
      · rw [h.unknown e (by omega), h.unknown (e + 1) hlt]
      · rw [h.known e (by omega) (by omega), h.known (e + 1) (by omega) (by omega)]

theorem init_at (zero : L) (add : L → L → L) (cs : List (Call V L × List V)) (y : V) :
    At zero add cs y cs.length (initEnv (ops zero) (compose zero add cs) [] [none] [some (y, zero)]) := by
  have hval : ∀ i, initEnv (ops zero) (compose zero add cs) [] [none] [some (y, zero)] i =
      if i = cs.length then some (y, zero) else none := by
    intro i
    unfold initEnv
    rw [writeAll_none]
    · simp only [compose, writeAll, write, ops]
      by_cases hi : i = cs.length
      · subst hi; simp
      · by_cases hi0 : i = 0
        · subst hi0; simp [hi]
        · simp [hi, hi0]
    · intro j x c h1 h2
      rw [List.getElem?_map, h1] at h2
      simp only [Option.map_some, Option.some.injEq] at h2
      rw [← h2]; rfl
  refine ⟨Nat.le_refl _, ?_, ?_⟩
  · intro i h1 h2
    have : i = cs.length := by omega
    subst this
    rw [hval]; simp [pull]
  · intro i hi
    rw [hval, if_neg (by omega)]

/-- The invariant of runs that do not raise. -/
theorem clean_inv (zero : L) (add : L → L → L) (cs : List (Call V L × List V)) (hf : Fits cs) (y : V)
    (s0 s : St (Cell V L) Bool) (h0 : Init (ops zero) (compose zero add cs) [] [none] [some (y, zero)] s0)
    (h : Clean zero (compose zero add cs) s0 s) :
    ∃ k, At zero add cs y k s.env ∧ (0 < k → k - 1 ∈ s.queue) := by
  induction h with
  | refl =>
    refine ⟨cs.length, by rw [h0.1]; exact init_at zero add cs y, fun hk => ?_⟩
    rw [h0.2.1.2]
    refine ⟨cs.length, by simp [compose, Atom.node], ?_⟩
    rw [compose_nbr]; omega
  | tail t u _ hst hu ih =>
    obtain ⟨k, hk, -⟩ := ih
    obtain ⟨e, rest, hq, hel, ⟨rfl, h1, -, -, hp⟩ | ⟨-, h2⟩⟩ := step_cases zero add cs hf y k t u hk hst
    · refine ⟨e, h1, fun he => ?_⟩
      refine (hp.mem (e - 1)).2 (.inr ⟨by omega, e, by simp, ?_⟩)
      rw [compose_nbr]; omega
    · exact absurd h2 (hu e)

/-- C64, partial: `inverse` and `ildj` of a composition of bijector calls, in both directions, with or without parameters.
Every run that returns, returns the inverse calls in the opposite order and the sum of their ILDJs.  What is missing is
that a composition of two or more can raise instead: `bijector_compose_raises`. -/
theorem bijector_compose_partial (zero : L) (add : L → L → L) (cs : List (Call V L × List V)) (hf : Fits cs) (y : V)
    (res : Option (V × L)) (h : Returns zero (compose zero add cs) y res) :
    res = some (cs.foldr (fun c v => if c.1.fwd then c.1.bij.inverse v else c.1.bij.forward v) y,
      (cs.foldr (fun c (r : V × L) => (if c.1.fwd then c.1.bij.inverse r.1 else c.1.bij.forward r.1,
        add r.2 (if c.1.fwd then c.1.bij.ildj r.1 else c.1.bij.fldj r.1))) (y, zero)).2) := by
  obtain ⟨s0, s, h0, hs, hq, rfl⟩ := h
  obtain ⟨k, hk, hk2⟩ := clean_inv zero add cs hf y s0 s h0 hs
  have hk0 : k = 0 := by
    rcases Nat.eq_zero_or_pos k with h | h
    · exact h
    · have := hk2 h; rw [hq] at this; simp at this
  subst hk0
  rw [hk.known 0 (Nat.le_refl _) (Nat.zero_le _), List.drop_zero]
  congr 1
  have hpull : pull zero add cs y = cs.foldr (fun c (r : V × L) => (if c.1.fwd then c.1.bij.inverse r.1 else c.1.bij.forward r.1,
        add r.2 (if c.1.fwd then c.1.bij.ildj r.1 else c.1.bij.fldj r.1))) (y, zero) := by
    simp only [pull]
    congr 1
    funext c r
    simp only [Call.invFunc, Call.ildjFunc]
    split <;> rfl
  refine Prod.ext ?_ (by rw [hpull])
  clear hk hk2 hpull hs h0 hq hf
  induction cs with
  | nil => rfl
  | cons c cs ih =>
    simp only [pull, List.foldr_cons] at ih ⊢
    rw [ih]
    simp only [Call.invFunc]
    split <;> rfl

/-- The initial queue, in one of the two orders. -/
theorem init_exists (zero : L) (add : L → L → L) (cs : List (Call V L × List V)) (y : V) (q : List Nat) (hnd : q.Nodup)
    (hq : ∀ e, e ∈ q ↔ e < cs.length ∧ (e = 0 ∨ e + 1 = cs.length)) :
    Init (ops zero) (compose zero add cs) [] [none] [some (y, zero)]
      ⟨initEnv (ops zero) (compose zero add cs) [] [none] [some (y, zero)], q, fun _ => none⟩ := by
  refine ⟨rfl, ⟨hnd, fun e => ?_⟩, fun _ => rfl⟩
  rw [hq]
  simp only [compose_nbr]
  simp only [compose, List.cons_append, List.nil_append, List.append_nil, List.map_cons, Atom.node,
    List.map_nil, List.mem_cons, Option.some.injEq, List.not_mem_nil, or_false]
  constructor
  · rintro ⟨h1, h2 | h2⟩
    · exact ⟨0, .inr rfl, h1, .inl h2.symm⟩
    · exact ⟨cs.length, .inl rfl, h1, .inr h2.symm⟩
  · rintro ⟨x, h1, h2, h3⟩
    refine ⟨h2, ?_⟩
    omega

/-- C64 (negation).  For every composition of two or more bijector calls there is an order of propagation (the order comes
from a Python set) in which `inverse` raises an `UnboundLocalError`. -/
theorem bijector_compose_raises (zero : L) (add : L → L → L) (cs : List (Call V L × List V)) (hf : Fits cs) (y : V)
    (h2 : 2 ≤ cs.length) : Raises zero (compose zero add cs) y := by
  let s0 : St (Cell V L) Bool :=
    ⟨initEnv (ops zero) (compose zero add cs) [] [none] [some (y, zero)], [0, cs.length - 1], fun _ => none⟩
  have hinit : Init (ops zero) (compose zero add cs) [] [none] [some (y, zero)] s0 :=
    init_exists zero add cs y _ (by simp; omega) (fun e => by simp; omega)
  have hat := init_at zero add cs y
  have hprog : ∃ u, Step (ops zero) (compose zero add cs) s0 u := by
    have he : (compose zero add cs).eqns[0]? =
        some ⟨(cs[0]'(by omega)).2.map Atom.lit ++ [Atom.var 0], [Atom.var (0 + 1)], rule zero add (cs[0]'(by omega)).1⟩ := by
      rw [compose_eqn, List.getElem?_eq_getElem (by omega : 0 < cs.length)]; rfl
    obtain ⟨q', hq'⟩ := Pushes.exists (compose zero add cs) 0 (progressed (ops zero) _ _ _) [cs.length - 1]
    exact ⟨_, .mk s0 0 [cs.length - 1] _ q' rfl he hq'⟩
  obtain ⟨u, hu⟩ := hprog
  obtain ⟨e, rest, hq, hel, h⟩ := step_cases zero add cs hf y cs.length s0 u hat hu
  simp only [s0, List.cons.injEq] at hq
  obtain ⟨rfl, rfl⟩ := hq
  rcases h with ⟨h, -⟩ | ⟨-, h⟩
  · omega
  · exact ⟨s0, s0, u, 0, hinit, .refl _, hu, h⟩

/-- Some iteration exists for every non-empty queue of equations. -/
theorem step_exists (zero : L) (add : L → L → L) (cs : List (Call V L × List V)) (s : St (Cell V L) Bool) (e : Nat)
    (rest : List Nat) (hq : s.queue = e :: rest) (hel : e < cs.length) :
    ∃ u, Step (ops zero) (compose zero add cs) s u := by
  have he : (compose zero add cs).eqns[e]? =
      some ⟨(cs[e]'hel).2.map Atom.lit ++ [Atom.var e], [Atom.var (e + 1)], rule zero add (cs[e]'hel).1⟩ := by
    rw [compose_eqn, List.getElem?_eq_getElem hel]; rfl
  obtain ⟨q', hq'⟩ := Pushes.exists (compose zero add cs) e (progressed (ops zero) _ _ _) rest
  exact ⟨_, .mk s e rest _ q' hq he hq'⟩

theorem singleton_of (l : List Nat) (a : Nat) (hnd : l.Nodup) (h : ∀ x, x ∈ l ↔ x = a) : l = [a] := by
  rcases l with _ | ⟨b, l⟩
  · exact absurd ((h a).2 rfl) (by simp)
  · have hb : b = a := (h b).1 (by simp)
    rcases l with _ | ⟨c, l⟩
    · rw [hb]
    · have hc : c = a := (h c).1 (by simp)
      rw [hb, hc] at hnd; simp at hnd

/-- The run that goes straight back from the output. -/
theorem clean_run (zero : L) (add : L → L → L) (cs : List (Call V L × List V)) (hf : Fits cs) (y : V)
    (s0 : St (Cell V L) Bool) (e : Nat) : ∀ s : St (Cell V L) Bool, Clean zero (compose zero add cs) s0 s → e < cs.length →
      At zero add cs y (e + 1) s.env → s.queue = (if e = 0 then [0] else [e, 0]) → (∀ i, s.states i ≠ some true) →
      ∃ t, Clean zero (compose zero add cs) s0 t ∧ t.queue = [] := by
  induction e with
  | zero =>
    intro s hs hel hat hq hst
    simp only [if_true] at hq
    obtain ⟨u, hu⟩ := step_exists zero add cs s 0 [] hq hel
    obtain ⟨e, rest, hq2, -, h⟩ := step_cases zero add cs hf y 1 s u hat hu
    rw [hq] at hq2
    simp only [List.cons.injEq] at hq2
    obtain ⟨rfl, rfl⟩ := hq2
    rcases h with ⟨-, h1, h2, h3, hp⟩ | ⟨h, -⟩
    · refine ⟨u, .tail _ _ _ hs hu (fun i => ?_), ?_⟩
      · by_cases hi : i = 0
        · subst hi; rw [h2]; simp
        · rw [h3 i hi]; exact hst i
      · cases hp with
        | cons _ _ _ ns _ hnd hns ht =>
          generalize hQ : u.queue = Q at ht
          cases ht with
          | nil =>
            rw [List.append_nil]
            apply List.eq_nil_iff_forall_not_mem.2
            intro x hx
            have := (hns x).1 hx
            rw [compose_nbr] at this
            omega
    · omega
  | succ e ih =>
    intro s hs hel hat hq hst
    rw [if_neg (by omega)] at hq
    obtain ⟨u, hu⟩ := step_exists zero add cs s (e + 1) [0] hq hel
    obtain ⟨e', rest, hq2, -, h⟩ := step_cases zero add cs hf y (e + 1 + 1) s u hat hu
    rw [hq] at hq2
    simp only [List.cons.injEq] at hq2
    obtain ⟨rfl, rfl⟩ := hq2
    rcases h with ⟨-, h1, h2, h3, hp⟩ | ⟨h, -⟩
    · have hst' : ∀ i, u.states i ≠ some true := by
        intro i
        by_cases hi : i = e + 1
        · subst hi; rw [h2]; simp
        · rw [h3 i hi]; exact hst i
      refine ih u (.tail _ _ _ hs hu hst') (by omega) h1 ?_ hst'
      cases hp with
      | cons _ _ _ ns _ hnd hns ht =>
        generalize hQ : u.queue = Q at ht
        cases ht with
        | nil =>
          by_cases he : e = 0
          · rw [if_pos he]
            have : ns = [] := by
              apply List.eq_nil_iff_forall_not_mem.2
              intro x hx
              have := (hns x).1 hx
              rw [compose_nbr] at this
              simp at this
              omega
            rw [this]; rfl
          · rw [if_neg he]
            have : ns = [e] := by
              refine singleton_of ns e hnd (fun x => ?_)
              rw [hns, compose_nbr]
              simp
              omega
            rw [this]; rfl
    · omega

/-- C64: the order of propagation that goes straight back from the output returns. -/
theorem bijector_compose_returns (zero : L) (add : L → L → L) (cs : List (Call V L × List V)) (hf : Fits cs) (y : V) :
    ∃ res, Returns zero (compose zero add cs) y res := by
  let env := initEnv (ops zero) (compose zero add cs) [] [none] [some (y, zero)]
  rcases Nat.eq_zero_or_pos cs.length with h0 | hpos
  · refine ⟨_, ⟨env, [], fun _ => none⟩, ⟨env, [], fun _ => none⟩, ?_, .refl _, rfl, rfl⟩
    exact init_exists zero add cs y _ (by simp) (fun e => by simp; omega)
  · let q : List Nat := if cs.length - 1 = 0 then [0] else [cs.length - 1, 0]
    have hinit : Init (ops zero) (compose zero add cs) [] [none] [some (y, zero)] ⟨env, q, fun _ => none⟩ := by
      refine init_exists zero add cs y _ ?_ (fun e => ?_)
      · simp only [q]; split <;> simp; omega
      · simp only [q]; split <;> simp <;> omega
    obtain ⟨t, h1, h2⟩ := clean_run zero add cs hf y ⟨env, q, fun _ => none⟩ (cs.length - 1) ⟨env, q, fun _ => none⟩
      (.refl _) (by omega) (by rw [Nat.sub_add_cancel hpos]; exact init_at zero add cs y) rfl (by simp)
    exact ⟨_, _, t, hinit, h1, h2, rfl⟩

/-- C64: inverting a single call never raises, whatever the order. -/
theorem bijector_single_never_raises (zero : L) (add : L → L → L) (c : Call V L) (ps : List V)
    (hf : ps.length = c.bij.nparams) (y : V) : ¬ Raises zero (compose zero add [(c, ps)]) y := by
  have hfits : Fits [(c, ps)] := by intro d hd; simp at hd; subst hd; exact hf
  rintro ⟨s0, t, u, e, h0, hc, hs, he⟩
  have inv : (∀ i, t.states i ≠ some true) ∧ ((At zero add [(c, ps)] y 1 t.env ∧ t.queue = [0]) ∨ t.queue = []) := by
    clear hs he
    induction hc with
    | refl =>
      refine ⟨fun i => by rw [h0.2.2]; simp, .inl ⟨by rw [h0.1]; exact init_at zero add [(c, ps)] y, ?_⟩⟩
      refine singleton_of _ 0 h0.2.1.1 (fun x => ?_)
      rw [h0.2.1.2]
      simp only [compose_nbr]
      constructor
      · rintro ⟨x, -, h, -⟩; simpa using h
      · rintro rfl; exact ⟨0, by simp [compose, Atom.node], by simp, .inl rfl⟩
    | tail t u h hst hu ih =>
      refine ⟨hu, .inr ?_⟩
      obtain ⟨-, ⟨hk, hq1⟩ | hq1⟩ := ih
      · obtain ⟨e, rest, hq, hel, ⟨h3, h1, -, -, hp⟩ | ⟨-, h2⟩⟩ := step_cases zero add _ hfits y 1 t u hk hst
        · rw [hq1] at hq
          simp only [List.cons.injEq] at hq
          obtain ⟨rfl, rfl⟩ := hq
          apply List.eq_nil_iff_forall_not_mem.2
          intro x hx
          rcases (hp.mem x).1 hx with hx | ⟨hx, y, hy, hx'⟩
          · simp at hx
          · rw [compose_nbr] at hx'
            simp at hx'
            omega
        · exact absurd h2 (hu e)
      · cases hst with
        | mk e rest q q' hq he hp => rw [hq1] at hq; simp at hq
  obtain ⟨hst, ⟨hk, hq1⟩ | hq1⟩ := inv
  · obtain ⟨e', rest, hq, hel, ⟨h3, h1, h2, h4, hp⟩ | ⟨h3, h2⟩⟩ := step_cases zero add _ hfits y 1 t u hk hs
    · by_cases hee : e = e'
      · subst hee; rw [h2] at he; simp at he
      · rw [h4 e hee] at he; exact hst e he
    · simp only [List.length_cons, List.length_nil] at hel; omega
  · cases hs with
    | mk e rest q q' hq he hp => rw [hq1] at hq; simp at hq

/-! Non-vacuity: two calls over the integers, with an abstract addition of ILDJs; the second is an inverse call with a
parameter. -/

def plus3 : Bij Int Int := ⟨(· + 3), (· - 3), fun _ => 0, fun _ => 0, 0⟩
def scale5 : Bij Int Int := ⟨(· * 5), (· / 5), fun _ => -7, fun _ => 7, 1⟩
def demo : List (Call Int Int × List Int) := [(⟨plus3, true⟩, []), (⟨scale5, false⟩, [5]), (⟨scale5, true⟩, [5])]

theorem demo_fits : Fits demo := by
  intro c hc
  simp only [demo, List.mem_cons, List.not_mem_nil, or_false] at hc
  rcases hc with rfl | rfl | rfl <;> rfl

example : ∃ res, Returns (0 : Int) (compose 0 (· + ·) demo) 10 res ∧ res = some (7, 0) := by
  obtain ⟨res, h⟩ := bijector_compose_returns (0 : Int) (· + ·) demo demo_fits 10
  exact ⟨res, h, by rw [bijector_compose_partial 0 (· + ·) demo demo_fits 10 res h]; rfl⟩

example : Raises (0 : Int) (compose 0 (· + ·) demo) 10 := bijector_compose_raises 0 _ demo demo_fits 10 (by decide)

example : ¬ Raises (0 : Int) (compose 0 (· + ·) [((⟨scale5, true⟩ : Call Int Int), [5])]) 10 :=
  bijector_single_never_raises 0 _ _ _ rfl 10

end Verif.Inverse.Bijector
