import Verif.LogProb.Sum

/-! C29: the change of variables formula for a transformed random variable. -/
namespace Verif.LogProb

open Verif.Propagate Verif.Inverse

/-- The program `x_1 ~ d(params); x_{i+2} = p_i x_{i+1}`, returning the last value; variable 0 is the seed. -/
def rvChain (params : List F) (d : List F → List F → F) (ps : List Un) : LProg :=
  ⟨[.var 0], [.var (ps.length + 1)],
    (.rv 0 d, Atom.var 0 :: params.map Atom.lit, [Atom.var 1]) ::
      ps.mapIdx (fun i p => (.det (.un p), [Atom.var (i + 1)], [Atom.var (i + 2)]))⟩

theorem writeAll_self (env : Env ICell) (as : List (Atom F)) :
    (writeAll iOps env as (as.map (Propagate.read iOps env))).1 = env := by
  induction as with
  | nil => rfl
  | cons a as ih =>
    simp only [List.map_cons, writeAll]
    have : (write iOps env a (Propagate.read iOps env a)).1 = env := by
      cases a with
      | lit v => rfl
      | drop x => rfl
      | var x =>
        funext y
        simp only [write, Propagate.read, iOps]
        by_cases h : y = x
        · subst h; simp
        · simp [h]
    rw [this]; exact ih

theorem writeAll_none (env : Env ICell) (as : List (Atom F)) (cs : List ICell)
    (hall : ∀ (j x : Nat) (c : ICell), as[j]? = some (Atom.var x) → cs[j]? = some c → c = none) :
    (writeAll iOps env as cs).1 = env := by
  induction as generalizing env cs with
  | nil => cases cs <;> rfl
  | cons a as ih =>
    obtain _ | ⟨c, cs⟩ := cs
    · rfl
    · simp only [writeAll]
      rw [ih]
      · cases a with
        | lit v => rfl
        | drop x => rfl
        | var x =>
          have := hall 0 x c (by simp) (by simp)
          subst this
          funext z
          simp only [write, iOps]
          by_cases hz : z = x
          · subst hz; simp
          · simp [hz]
      · intro j x c h1 h2
        exact hall (j + 1) x c (by simpa using h1) (by simpa using h2)

theorem rv_exec_self (env : Env ICell) (nc d) (ins outs : List (Atom F)) :
    (exec iOps env (⟨ins, outs, (LOp.rv nc d).rule⟩ : Eqn ICell F (Option F))).1 = env := by
  have hr : ∀ i o, (LOp.rv nc d).rule i o = (i, o, (rvRule nc d i o).2.2) := by
    intro i o
    simp only [LOp.rule, rvRule]
    split <;> rfl
  simp only [exec, hr]
  rw [writeAll_self, writeAll_self]

theorem rvChain_eqn (params d ps) (e : Nat) : (rvChain params d ps).jaxpr.eqns[e + 1]? =
    (ps[e]?).map (fun p => ⟨[Atom.var (e + 1)], [Atom.var (e + 2)], (LOp.det (.un p)).rule⟩) := by
  simp only [rvChain, LProg.jaxpr, List.map_cons, List.getElem?_cons_succ, List.getElem?_map, List.getElem?_mapIdx, Option.map_map]
  rfl

theorem rvChain_sized (params d ps) : Sized (rvChain params d ps).jaxpr := by
  intro q hq i o hi ho
  obtain ⟨e, he⟩ := List.mem_iff_getElem?.1 hq
  cases e with
  | zero =>
    simp only [rvChain, LProg.jaxpr, List.map_cons, List.getElem?_cons_zero, Option.some.injEq] at he
    subst he
    simp only [LOp.rule, rvRule]
    split <;> exact ⟨hi, ho⟩
  | succ e =>
    rw [rvChain_eqn] at he
    rcases hpe : ps[e]? with _ | p
    · rw [hpe] at he; simp at he
    rw [hpe] at he
    simp only [Option.map_some, Option.some.injEq] at he
    subst he
    obtain ⟨c, rfl⟩ := List.length_eq_one_iff.1 hi
    obtain ⟨c', rfl⟩ := List.length_eq_one_iff.1 ho
    obtain _ | ⟨v, l⟩ := c <;> obtain _ | ⟨v', l'⟩ := c' <;> exact ⟨rfl, rfl⟩

structure RInv (params : List F) (d : List F → List F → F) (ps : List Un) (y : F) (k : Nat) (s : St ICell (Option F)) : Prop where
  pos : 1 ≤ k
  le : k ≤ ps.length + 1
  known : ∀ i, k ≤ i → i ≤ ps.length + 1 → s.env i = some (pull (ps.drop (i - 1)) y)
  unknown : ∀ i < k, s.env i = none
  queued : 1 < k → k - 1 ∈ s.queue
  state : ∀ v, s.states 0 = some (some v) → v = d params [(pull ps y).1]

theorem rvChain_step (params d ps) (y : F) (k : Nat) (s t : St ICell (Option F)) (h : RInv params d ps y k s)
    (hst : Step iOps (rvChain params d ps).jaxpr s t) : ∃ k', RInv params d ps y k' t := by
  cases hst with
  | mk e rest q q' hq he hp =>
    cases e with
    | zero =>
      simp only [rvChain, LProg.jaxpr, List.map_cons, List.getElem?_cons_zero, Option.some.injEq] at he
      subst he
      refine ⟨k, h.pos, h.le, ?_, ?_, ?_, ?_⟩
      · intro i; simp only; rw [rv_exec_self]; exact h.known i
      · intro i; simp only; rw [rv_exec_self]; exact h.unknown i
      · intro hk
        have := h.queued hk
        rw [hq] at this
        rcases List.mem_cons.1 this with h' | h'
        · omega
        · exact (hp.mem _).2 (.inl h')
      · intro v hv
        simp only [if_true, exec, LOp.rule, rvRule, Option.some.injEq] at hv
        split at hv
        · rename_i a b ha hb
          simp only [Option.some.injEq] at hv
          have hl : ∀ l : List F, ((l.map Atom.lit).map (Propagate.read iOps s.env)).mapM id = some (l.map (fun v => (v, some 0))) := by
            intro l
            induction l with
            | nil => rfl
            | cons v l ih => simp [Propagate.read, iOps] at ih ⊢; simp [ih]
          simp only [List.map_cons, List.drop_zero, List.drop_succ_cons] at ha
          rw [hl] at ha
          obtain rfl := Option.some.inj ha
          rcases Nat.lt_or_ge 1 k with hk | hk
          · simp [Propagate.read, h.unknown 1 hk] at hb
          · have := h.known 1 hk (by omega)
            simp [Propagate.read, this] at hb
            subst hb
            rw [← hv]
            simp [Function.comp_def]
        · simp at hv
    | succ e =>
    rw [rvChain_eqn] at he
    rcases hpe : ps[e]? with _ | p
    · rw [hpe] at he; simp at he
    rw [hpe] at he
    simp only [Option.map_some, Option.some.injEq] at he
    subst he
    have hel := (List.getElem?_eq_some_iff.1 hpe).1
    rcases Nat.lt_trichotomy (e + 2) k with hlt | heq | hgt
    · -- both unknown
      have h0 := h.unknown (e + 1) (by omega)
      have h1 := h.unknown (e + 2) hlt
      refine ⟨k, h.pos, h.le, ?_, ?_, ?_, fun v hv => h.state v (by simpa using hv)⟩
      · intro i hi hi'
        have := h.known i hi hi'
        simp only
        rw [exec_frame, this]
        simp [Atom.node]; omega
      · intro i hi
        have := h.unknown i hi
        simp only [List.map_cons, List.map_nil, Propagate.read, exec, h0, h1, LOp.rule, Op.rule, unRule, writeAll, write, iOps]
        simp
        exact fun _ _ => this
      · intro hk
        have := h.queued hk
        rw [hq] at this
        rcases List.mem_cons.1 this with h' | h'
        · omega
        · exact (hp.mem _).2 (.inl h')
    · -- the frontier
      have h0 := h.unknown (e + 1) (by omega)
      have h1 := h.known (e + 2) (by omega) (by omega)
      have hpull := pull_drop ps y e p hpe
      simp only [show e + 2 - 1 = e + 1 by omega] at h1
      generalize pull (ps.drop (e + 1)) y = c at hpull h1
      obtain ⟨v, l⟩ := c
      have hexec : ∀ i, (exec iOps s.env (⟨[Atom.var (e + 1)], [Atom.var (e + 2)], (LOp.det (.un p)).rule⟩ : Eqn ICell F (Option F))).1 i =
          if i = e + 1 then some (pull (ps.drop e) y) else s.env i := by
        intro i
        simp only [List.map_cons, List.map_nil, Propagate.read, exec, h0, h1, LOp.rule, Op.rule, unRule, writeAll, write, iOps]
        by_cases a1 : i = e + 1
        · subst a1; simp [hpull]
        · by_cases a2 : i = e + 2
          · subst a2; simp [h1]
          · simp [a1, a2]
      refine ⟨e + 1, by omega, by omega, ?_, ?_, ?_, fun v hv => h.state v (by simpa using hv)⟩
      · intro i hi hi'
        simp only
        rw [hexec]
        by_cases a1 : i = e + 1
        · subst a1; simp
        · rw [if_neg a1]; exact h.known i (by omega) hi'
      · intro i hi
        simp only
        rw [hexec, if_neg (by omega)]
        exact h.unknown i (by omega)
      · intro he0
        have hx : e + 1 ∈ progressed iOps ([Atom.var (e + 1)] ++ [Atom.var (e + 2)])
            ([Atom.var (e + 1)].map (Propagate.read iOps s.env) ++ [Atom.var (e + 2)].map (Propagate.read iOps s.env))
            ((exec iOps s.env (⟨[Atom.var (e + 1)], [Atom.var (e + 2)], (LOp.det (.un p)).rule⟩ : Eqn ICell F (Option F))).2.1 ++
             (exec iOps s.env (⟨[Atom.var (e + 1)], [Atom.var (e + 2)], (LOp.det (.un p)).rule⟩ : Eqn ICell F (Option F))).2.2.1) := by
          refine known_progressed (rvChain_sized params d ps) (q := ⟨[Atom.var (e + 1)], [Atom.var (e + 2)], (LOp.det (.un p)).rule⟩) ?_ s.env (e + 1) h0 ?_
          · refine List.mem_of_getElem? (i := e + 1) ?_
            rw [rvChain_eqn, hpe]; rfl
          · rw [hexec]; simp
        refine (hp.mem (e + 1 - 1)).2 (.inr ⟨by omega, e + 1, hx, ?_⟩)
        obtain ⟨e', rfl⟩ : ∃ e', e = e' + 1 := ⟨e - 1, by omega⟩
        refine ⟨⟨[Atom.var (e' + 1)], [Atom.var (e' + 2)], (LOp.det (.un (ps[e']'(by omega)))).rule⟩, ?_, by simp [Atom.node]⟩
        show (rvChain params d ps).jaxpr.eqns[e' + 1]? = _
        rw [rvChain_eqn, List.getElem?_eq_getElem (by omega)]
        rfl
    · -- both known
      have h0 := h.known (e + 1) (by omega) (by omega)
      have h1 := h.known (e + 2) (by omega) (by omega)
      have hexec : (exec iOps s.env (⟨[Atom.var (e + 1)], [Atom.var (e + 2)], (LOp.det (.un p)).rule⟩ : Eqn ICell F (Option F))).1 = s.env := by
        funext i
        generalize pull (ps.drop (e + 1 - 1)) y = c at h0
        generalize pull (ps.drop (e + 2 - 1)) y = d at h1
        obtain ⟨v, l⟩ := c
        obtain ⟨v', l'⟩ := d
        simp only [List.map_cons, List.map_nil, Propagate.read, exec, h0, h1, LOp.rule, Op.rule, unRule, writeAll, write, iOps]
        by_cases a1 : i = e + 1
        · subst a1; simp [h0]
        · by_cases a2 : i = e + 2
          · subst a2; simp [h1]
          · simp [a1, a2]
      refine ⟨k, h.pos, h.le, ?_, ?_, ?_, fun v hv => h.state v (by simpa using hv)⟩
      · intro i hi hi'; simp only; rw [hexec]; exact h.known i hi hi'
      · intro i hi; simp only; rw [hexec]; exact h.unknown i hi
      · intro hk
        have := h.queued hk
        rw [hq] at this
        rcases List.mem_cons.1 this with h' | h'
        · omega
        · exact (hp.mem _).2 (.inl h')

theorem rvChain_init (params d ps) (y : F) (s : St ICell (Option F))
    (h : Init iOps (rvChain params d ps).jaxpr [] [none] [some (y, some 0)] s) : RInv params d ps y (ps.length + 1) s := by
  obtain ⟨henv, hq, hst⟩ := h
  have hval : ∀ i, s.env i = if i = ps.length + 1 then some (y, some 0) else none := by
    intro i
    rw [henv]
    unfold initEnv
    rw [writeAll_none]
    · simp only [rvChain, LProg.jaxpr, writeAll, write, iOps]
      by_cases hi : i = ps.length + 1
      · subst hi; simp
      · by_cases hi0 : i = 0
        · subst hi0; simp
        · simp [hi, hi0]
    · intro j x c h1 h2
      rw [List.getElem?_map, h1] at h2
      simp only [Option.map_some, Option.some.injEq] at h2
      rw [← h2]; rfl
  refine ⟨by omega, Nat.le_refl _, ?_, ?_, ?_, ?_⟩
  · intro i h1 h2
    have : i = ps.length + 1 := by omega
    subst this
    rw [hval]; simp [pull]
  · intro i hi
    rw [hval, if_neg (by omega)]
  · intro hk
    rw [hq.2]
    refine ⟨ps.length + 1, by simp [rvChain, LProg.jaxpr, Atom.node], ?_⟩
    obtain ⟨n, hn⟩ : ∃ n, ps.length = n + 1 := ⟨ps.length - 1, by omega⟩
    refine ⟨⟨[Atom.var (n + 1)], [Atom.var (n + 2)], (LOp.det (.un (ps[n]'(by omega)))).rule⟩, ?_, by simp [Atom.node, hn]⟩
    rw [show ps.length + 1 - 1 = n + 1 by omega, rvChain_eqn, List.getElem?_eq_getElem (by omega)]
    rfl
  · intro v hv; rw [hst] at hv; simp at hv

open Classical in
theorem init_exists {S : Type} (J : Jaxpr ICell F S) (consts ins outs : List ICell) : ∃ s0 : St ICell S, Init iOps J consts ins outs s0 := by
  refine ⟨⟨_, (List.range J.eqns.length).filter (fun e => decide (∃ x, some x ∈ (J.outvars ++ J.invars ++ J.constvars).map Atom.node ∧ Nbr J x e)),
    fun _ => none⟩, rfl, ⟨List.nodup_range.filter _, fun e => ?_⟩, fun _ => rfl⟩
  simp only [List.mem_filter, List.mem_range, decide_eq_true_eq, and_iff_right_iff_imp]
  rintro ⟨x, -, q, hq, -⟩
  exact (List.getElem?_eq_some_iff.1 hq).1

/-- C29.  `log_prob` always comes to an end, with a value or an exception. -/
theorem log_prob_terminates (P : LProg) (hs : Sized P.jaxpr) (args ys : List F) : ∃ res, LogProbRun P args ys res := by
  obtain ⟨s0, h0⟩ := init_exists P.jaxpr [] (none :: args.map (fun a => some (a, some 0))) (ys.map (fun y => some (y, some 0)))
  obtain ⟨t, ht, hq⟩ := propagate_completes iOps P.jaxpr hs (fun c => if c.isSome then 0 else 1)
      (by intro a b; cases a <;> cases b <;> simp [iOps])
      (by intro a b; cases a <;> cases b <;> simp [iOps]) _ _ _ s0 s0 h0 (.refl _)
  exact ⟨_, s0, t, h0, ht, hq, rfl⟩

/-- Every run of `log_prob` on a transformed random variable returns the log-density at the inverse image plus
the ILDJ. -/
theorem rvChain_log_prob (params d ps) (y : F) (res : Option F) (h : LogProbRun (rvChain params d ps) [] [y] res) :
    res = some (addF (d params [(pull ps y).1]) (pull ps y).2) := by
  obtain ⟨s0, s, h0, hs, hq, rfl⟩ := h
  have hk : ∃ k, RInv params d ps y k s := by
    clear hq
    induction hs with
    | refl => exact ⟨_, rvChain_init params d ps y s0 h0⟩
    | tail t u _ hst ih => obtain ⟨k, hk⟩ := ih; exact rvChain_step params d ps y k t u hk hst
  obtain ⟨k, hk⟩ := hk
  have hinv := (LInv.init _ _ _ _ s0 h0).steps _ (rvChain_sized params d ps) hs
  have hk1 : k = 1 := by
    by_contra hne
    have := hk.queued (by have := hk.pos; omega)
    rw [hq] at this; simp at this
  subst hk1
  have hx := hk.known 1 (Nat.le_refl _) (by omega)
  simp only [Nat.sub_self, List.drop_zero] at hx
  have hcomp := hinv.complete 0 _ 0 d rfl rfl ⟨1, by simp [needs, Atom.node]⟩ (by
    intro x hx'
    simp only [needs, List.drop_zero, List.drop_succ_cons, List.map_append, List.map_map, List.mem_append, List.mem_map,
      Function.comp] at hx'
    rcases hx' with ⟨v, -, h1⟩ | ⟨a, h1, h2⟩
    · simp [Atom.node] at h1
    · simp at h1; subst h1; simp [Atom.node] at h2; subst h2; rw [hx]; simp)
  rw [hq] at hcomp
  have hv : ∃ v, s.states 0 = some (some v) := by
    rcases hst : s.states 0 with _ | _ | v
    · rw [hst] at hcomp; simp at hcomp
    · rw [hst] at hcomp; simp at hcomp
    · exact ⟨v, rfl⟩
  obtain ⟨v, hv⟩ := hv
  have hveq := hk.state v hv
  obtain ⟨t, ht⟩ := (log_prob_returns_iff _ (rvChain_sized params d ps) (by
      intro q hqm nc d' hqd
      simp only [rvChain, List.mem_cons] at hqm
      rcases hqm with rfl | hqm
      · exact ⟨1, by simp [Atom.node]⟩
      · obtain ⟨i, hi, rfl⟩ := List.mem_mapIdx.1 hqm
        simp at hqd) [] [y] s0 s h0 hs hq).2 (by
      intro q hqm nc d' hqd
      obtain ⟨e, he⟩ := List.mem_iff_getElem?.1 hqm
      cases e with
      | zero =>
        obtain rfl : _ = q := Option.some.inj he
        cases hqd
        refine hinv.known 0 _ 0 d rfl rfl (by rw [hv]; simp)
      | succ e =>
        exfalso
        simp only [rvChain, List.getElem?_cons_succ, List.getElem?_mapIdx, Option.map_eq_some_iff] at he
        obtain ⟨p, -, rfl⟩ := he
        simp at hqd)
  rw [ht]
  obtain ⟨lp, il, h1, h2⟩ := finish_some _ s hinv.det t ht
  obtain ⟨h3, h4⟩ := h2 0 _ 0 d rfl rfl
  rw [hv] at h3
  simp only [Option.some.injEq] at h3
  have hfm : ((rvChain params d ps).eqns.zipIdx).filterMap (term lp il) = [addF (lp 0) (il 0)] := by
    simp only [rvChain, List.zipIdx_cons, List.filterMap_cons, term]
    congr 1
    rw [List.filterMap_eq_nil_iff]
    rintro ⟨q, e⟩ hp
    have := List.fst_mem_of_mem_zipIdx hp
    obtain ⟨i, hi, rfl⟩ := List.mem_mapIdx.1 this
    rfl
  rw [hfm] at h1
  rw [h1]
  simp only [sumF, List.foldr_cons, List.foldr_nil, addF_zero_right]
  rw [h4, ← h3, hveq]
  simp [ildjSum, Propagate.read, hx, addF_zero_left]

/-- C29 for one transformed random variable: `f(seed) = g(z)` with `z ~ d` and `g` a chain of elementwise
primitives (without `reshape`/`convert_element_type`).  Let `G` be the function that `inverse(g)` computes.  If
`log_prob(f)(y)` is a number then it is `log p(G y) + log |G'(y)|`, the log-density of `g(z)` at `y`. -/
theorem log_prob_change_of_variables_partial (params : List F) (d : List F → List F → F) (ps : List Un)
    (hps : ∀ p ∈ ps, p ≠ .reshape ∧ p ≠ .convert) (G : ℝ → ℝ)
    (hG : ∀ w v l, InverseRun (chainProg ps) [some w] (some [(some v, l)]) → G w = v) (y t : ℝ)
    (hd : ∀ v, d params [none] ≠ some v)
    (h : LogProbRun (rvChain params d ps) [] [some y] (some (some t))) :
    ∃ g' lp, HasDerivAt G g' y ∧ d params [some (G y)] = some lp ∧ t = lp + Real.log |g'| := by
  have h1 := rvChain_log_prob params d ps (some y) _ h
  simp only [Option.some.injEq] at h1
  rcases hp : pull ps (some y) with ⟨x, l⟩
  rw [hp] at h1
  rcases hdx : d params [x] with _ | lp
  · rw [hdx] at h1; simp [addF] at h1
  rcases x with _ | x
  · exact absurd hdx (hd lp)
  rcases l with _ | l
  · rw [hdx] at h1; simp [addF] at h1
  have hrun : InverseRun (chainProg ps) [some y] (some [(some x, some l)]) := by rw [chain_run, hp]
  obtain ⟨g', hg', hl⟩ := chain_ildj_partial ps hps G hG y x l hrun
  refine ⟨g', lp, hg', ?_, ?_⟩
  · rw [hG y x _ hrun]; exact hdx
  · rw [hdx] at h1
    simp only [addF, Option.bind_eq_bind, Option.bind_some, Option.pure_def, Option.some.injEq] at h1
    rw [h1, hl]

/-- C29 (negation).  `f(seed) = exp(reshape(z))`: `log_prob` returns the log-density of `z` at `log y` without the
Jacobian term `-log y`. -/
theorem log_prob_reshape_wrong (lp : ℝ) (d : List F → List F → F) (hd : d [] [some (Real.log 2)] = some lp)
    (res : Option F) (h : LogProbRun (rvChain [] d [.reshape, .exp]) [] [some 2] res) :
    res = some (some lp) ∧ lp ≠ lp + Real.log |1 / 2| := by
  rw [rvChain_log_prob [] d _ _ _ h]
  have hlog : Real.log |1 / 2| ≠ 0 := by
    rw [abs_of_pos (by norm_num)]
    exact Real.log_ne_zero_of_pos_of_ne_one (by norm_num) (by norm_num)
  refine ⟨?_, ?_⟩
  · simp [pull, Un.g, Un.ld, npLog, hd, addF]
  · intro hc; apply hlog; linarith

/-- C29: a random variable whose value cannot be recovered makes `log_prob` raise.  Here `f = z₁ + z₂`. -/
theorem log_prob_sum_of_two_raises (d₁ d₂ : List F → List F → F) (y : F) (res : Option F)
    (h : LogProbRun ⟨[.var 0], [.var 3], [(.rv 0 d₁, [.var 0], [.var 1]), (.rv 0 d₂, [.var 0], [.var 2]),
      (.det (.bin .add), [.var 1, .var 2], [.var 3])]⟩ [] [y] res) : res = none := by
  obtain ⟨s0, s, h0, hs, hq, rfl⟩ := h
  have hinv : s.env 1 = none ∧ s.env 2 = none := by
    clear hq
    induction hs with
    | refl =>
      constructor <;> by_contra hne <;> rw [h0.1] at hne <;> have := initEnv_known _ _ _ _ _ hne <;>
        simp [LProg.jaxpr, Atom.node] at this
    | tail t u _ hst ih =>
      cases hst with
      | mk e rest q q' hq he hp =>
        simp only [LProg.jaxpr, List.map_cons, List.map_nil] at he
        obtain _ | _ | _ | e := e
        · simp at he; subst he; simp only; rw [rv_exec_self]; exact ih
        · simp at he; subst he; simp only; rw [rv_exec_self]; exact ih
        · simp at he; subst he
          rcases h3 : t.env 3 with _ | ⟨v, l⟩ <;>
            simp [exec, LOp.rule, Op.rule, binRule, Propagate.read, writeAll, write, iOps, ih.1, ih.2, h3]
        · simp at he
  have hI := (LInv.init _ _ _ _ s0 h0).steps _ (by
    intro q hqm i o hi ho
    simp only [LProg.jaxpr, List.map_cons, List.map_nil, List.mem_cons, List.not_mem_nil, or_false] at hqm
    rcases hqm with rfl | rfl | rfl
    · simp only [LOp.rule, rvRule]; split <;> exact ⟨hi, ho⟩
    · simp only [LOp.rule, rvRule]; split <;> exact ⟨hi, ho⟩
    · obtain ⟨a, b, rfl⟩ := List.length_eq_two.1 hi
      obtain ⟨c, rfl⟩ := List.length_eq_one_iff.1 ho
      obtain _ | ⟨_, _⟩ := a <;> obtain _ | ⟨_, _⟩ := b <;> obtain _ | ⟨_, _⟩ := c <;> exact ⟨rfl, rfl⟩) hs
  by_contra hne
  refine hne (finish_none _ s 0 _ 0 d₁ rfl rfl ?_)
  by_contra hst
  exact hI.known 0 _ 0 d₁ rfl rfl hst 1 (by simp [needs, Atom.node]) hinv.1

/-- An instance with two random variables, `z₁ ~ d₁`, `z₂ ~ d₂(z₁)`, outputs `exp z₁` and `z₁ * z₂`. -/
example : ∃ val : Nat → ℝ, val 1 = 1 ∧ val 2 = 3 ∧
    (⟨[.var 0], [.var 3, .var 4], [(.rv 0 (fun _ _ => some 0), [.var 0], [.var 1]),
      (.rv 0 (fun _ _ => some 0), [.var 0, .var 1], [.var 2]),
      (.det (.un .exp), [.var 1], [.var 3]), (.det (.bin .mul), [.var 1, .var 2], [.var 4])]⟩ : LProg).Executes val ∧
    Bin.mul.ok (val 1) (val 2) := by
  refine ⟨fun i => if i = 1 then 1 else if i = 2 then 3 else if i = 3 then Real.exp 1 else 3, by simp, by simp, ?_, ?_⟩
  · intro q hq op hop
    simp at hq
    rcases hq with rfl | rfl | rfl | rfl <;> cases hop <;> simp [Op.eval, aval, Un.f, Bin.f, bind2]
  · simp [Bin.ok]

end Verif.LogProb
