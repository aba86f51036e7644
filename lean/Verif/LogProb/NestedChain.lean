import Verif.LogProb.NestedProps

/-! Chains of elementwise operations applied to the result of a random variable, a call or a plate. -/
namespace Verif.LogProb.Nested

open Verif.Propagate Verif.Inverse

variable {ι : Type}

/-- The rule of an elementwise primitive (inverse/core.py:248-261; `Verif.Inverse.unRule`), index by index. -/
noncomputable def bUn (p : Un) : List (BCell ι) → List (BCell ι) → List (BCell ι) × List (BCell ι)
  | [none], [some c] => ([some (fun j => ((c j).1.bind p.g, p.ld (c j).2 (c j).1))], [some c])
  | [some c], [none] => ([some c], [some (fun j => ((c j).1.bind p.f, some 0))])
  | i, o => (i, o)

/-- The program `x_1 = src(...); x_{i+2} = p_i x_{i+1}`, returning the last value; variable 0 is the seed. -/
noncomputable def srcChain (src : NOp ι) (ins : List (Atom F)) (ps : List Un) : NProg ι :=
  ⟨[.var 0], [.var (ps.length + 1)],
    ⟨src, ins, [.var 1]⟩ :: ps.mapIdx (fun i p => ⟨.det (bUn p), [Atom.var (i + 1)], [Atom.var (i + 2)]⟩)⟩

/-- Pulling values with their ILDJs back through the operations. -/
noncomputable def pulls (ps : List Un) (c : F × F) : F × F :=
  ps.foldr (fun p c => (c.1.bind p.g, p.ld c.2 c.1)) c

theorem pulls_append (ps qs : List Un) (c : F × F) : pulls (ps ++ qs) c = pulls ps (pulls qs c) := by
  simp [pulls]

theorem pulls_drop (ps : List Un) (c : F × F) (e : Nat) (p : Un) (h : ps[e]? = some p) :
    pulls (ps.drop e) c = ((pulls (ps.drop (e + 1)) c).1.bind p.g, p.ld (pulls (ps.drop (e + 1)) c).2 (pulls (ps.drop (e + 1)) c).1) := by
  have he := (List.getElem?_eq_some_iff.1 h).1
  have : ps.drop e = p :: ps.drop (e + 1) := by
    rw [List.drop_eq_getElem_cons he]
    congr 1
    exact (List.getElem?_eq_some_iff.1 h).2
  rw [this]; rfl

/-- The source equation leaves the cells alone and its state is a function of the cell of its value. -/
def Passes (src : NOp ι) (ins : List (Atom F)) (st : BCell ι → LState ι) : Prop :=
  ∀ env : Env (BCell ι), env 0 = none →
    src.rule (ins.map (Propagate.read (bOps ι) env)) [env 1] = (ins.map (Propagate.read (bOps ι) env), [env 1], st (env 1))

theorem chain_eqn (src : NOp ι) (ins ps) (e : Nat) : (srcChain src ins ps).jaxpr.eqns[e + 1]? =
    (ps[e]?).map (fun p => ⟨[Atom.var (e + 1)], [Atom.var (e + 2)], (NOp.det (bUn p)).rule⟩) := by
  simp only [srcChain, NProg.jaxpr, List.map_cons, List.getElem?_cons_succ, List.getElem?_map, List.getElem?_mapIdx, Option.map_map]
  rfl

/-- The source rule returns as many cells as it gets. -/
def SizedSrc (src : NOp ι) (ins : List (Atom F)) : Prop :=
  ∀ i o, i.length = ins.length → o.length = 1 → (src.rule i o).1.length = ins.length ∧ (src.rule i o).2.1.length = 1

theorem srcChain_sized (src : NOp ι) (ins ps) (h : SizedSrc src ins) : Sized (srcChain src ins ps).jaxpr := by
  intro q hq i o hi ho
  obtain ⟨e, he⟩ := List.mem_iff_getElem?.1 hq
  cases e with
  | zero =>
    simp only [srcChain, NProg.jaxpr, List.map_cons, List.getElem?_cons_zero, Option.some.injEq] at he
    subst he
    exact h i o hi ho
  | succ e =>
    rw [chain_eqn] at he
    rcases hpe : ps[e]? with _ | p
    · rw [hpe] at he; simp at he
    rw [hpe] at he
    simp only [Option.map_some, Option.some.injEq] at he
    subst he
    obtain ⟨c, rfl⟩ := List.length_eq_one_iff.1 hi
    obtain ⟨c', rfl⟩ := List.length_eq_one_iff.1 ho
    obtain _ | v := c <;> obtain _ | v' := c' <;> exact ⟨rfl, rfl⟩

structure CInv (st : BCell ι → LState ι) (ps : List Un) (y : ι → F × F) (k : Nat) (s : St (BCell ι) (LState ι)) : Prop where
  pos : 1 ≤ k
  le : k ≤ ps.length + 1
  known : ∀ i, k ≤ i → i ≤ ps.length + 1 → s.env i = some (fun j => pulls (ps.drop (i - 1)) (y j))
  unknown : ∀ i < k, s.env i = none
  queued : 1 < k → k - 1 ∈ s.queue
  state : k = 1 → 0 ∈ s.queue ∨ s.states 0 = some (st (s.env 1))

theorem src_exec (src : NOp ι) (ins) (st) (h : Passes src ins st) (env : Env (BCell ι)) (h0 : env 0 = none) :
    (exec (bOps ι) env (⟨ins, [Atom.var 1], src.rule⟩ : Eqn (BCell ι) F (LState ι))).1 = env ∧
    (exec (bOps ι) env (⟨ins, [Atom.var 1], src.rule⟩ : Eqn (BCell ι) F (LState ι))).2.2.2 = st (env 1) := by
  have := h env h0
  simp only [exec, List.map_cons, List.map_nil, Propagate.read, this, and_true]
  rw [writeAll_same]
  exact writeAll_same env [Atom.var 1]

theorem chain_step (src : NOp ι) (ins ps st) (hz : SizedSrc src ins) (hpass : Passes src ins st) (y : ι → F × F) (k : Nat)
    (s t : St (BCell ι) (LState ι)) (h : CInv st ps y k s)
    (hst : Step (bOps ι) (srcChain src ins ps).jaxpr s t) : ∃ k', CInv st ps y k' t := by
  have hsz := srcChain_sized src ins ps hz
  have hnb0 : Nbr (srcChain src ins ps).jaxpr 1 0 :=
    ⟨⟨ins, [Atom.var 1], src.rule⟩, rfl, by simp [Atom.node]⟩
  cases hst with
  | mk e rest q q' hq he hp =>
    cases e with
    | zero =>
      simp only [srcChain, NProg.jaxpr, List.map_cons, List.getElem?_cons_zero, Option.some.injEq] at he
      subst he
      obtain ⟨hx1, hx2⟩ := src_exec src ins st hpass s.env (h.unknown 0 h.pos)
      refine ⟨k, h.pos, h.le, ?_, ?_, ?_, ?_⟩
      · intro i; simp only; rw [hx1]; exact h.known i
      · intro i; simp only; rw [hx1]; exact h.unknown i
      · intro hk
        have := h.queued hk
        rw [hq] at this
        rcases List.mem_cons.1 this with h' | h'
        · omega
        · exact (hp.mem _).2 (.inl h')
      · intro _
        right
        simp only [if_true]
        rw [hx1, hx2]
    | succ e =>
    rw [chain_eqn] at he
    rcases hpe : ps[e]? with _ | p
    · rw [hpe] at he; simp at he
    rw [hpe] at he
    simp only [Option.map_some, Option.some.injEq] at he
    subst he
    have hel := (List.getElem?_eq_some_iff.1 hpe).1
    have hkeep0 : 0 ∈ s.queue → 0 ∈ q' := by
      intro h1
      rw [hq] at h1
      rcases List.mem_cons.1 h1 with h1 | h1
      · omega
      · exact (hp.mem 0).2 (.inl h1)
    rcases Nat.lt_trichotomy (e + 2) k with hlt | heq | hgt
    · -- both unknown
      have h0 := h.unknown (e + 1) (by omega)
      have h1 := h.unknown (e + 2) hlt
      refine ⟨k, h.pos, h.le, ?_, ?_, ?_, fun hk => absurd hk (by omega)⟩
      · intro i hi hi'
        have := h.known i hi hi'
        simp only
        rw [exec_frame, this]
        simp [Atom.node]; omega
      · intro i hi
        have := h.unknown i hi
        simp only [List.map_cons, List.map_nil, Propagate.read, exec, h0, h1, NOp.rule, bUn, writeAll, write, bOps]
        simp
        exact fun _ _ => this
      · intro hk
        have := h.queued hk
        rw [hq] at this
        rcases List.mem_cons.1 this with h' | h'
        · omega
        · exact (hp.mem _).2 (.inl h')
    · -- the frontier
      have h0 := h.unknown (e + 1) (by omega)
      have h1 := h.known (e + 2) (by omega) (by omega)
      simp only [show e + 2 - 1 = e + 1 by omega] at h1
      have hexec : ∀ i, (exec (bOps ι) s.env (⟨[Atom.var (e + 1)], [Atom.var (e + 2)], (NOp.det (bUn p)).rule⟩ : Eqn (BCell ι) F (LState ι))).1 i =
          if i = e + 1 then some (fun j => pulls (ps.drop e) (y j)) else s.env i := by
        intro i
        simp only [List.map_cons, List.map_nil, Propagate.read, exec, h0, h1, NOp.rule, bUn, writeAll, write, bOps]
        by_cases a1 : i = e + 1
        · subst a1
          have : ∀ j, pulls (ps.drop e) (y j) = _ := fun j => pulls_drop ps (y j) e p hpe
          simp [this]
        · by_cases a2 : i = e + 2
          · subst a2; simp [h1]
          · simp [a1, a2]
      have hx : e + 1 ∈ progressed (bOps ι) ([Atom.var (e + 1)] ++ [Atom.var (e + 2)])
          ([Atom.var (e + 1)].map (Propagate.read (bOps ι) s.env) ++ [Atom.var (e + 2)].map (Propagate.read (bOps ι) s.env))
          ((exec (bOps ι) s.env (⟨[Atom.var (e + 1)], [Atom.var (e + 2)], (NOp.det (bUn p)).rule⟩ : Eqn (BCell ι) F (LState ι))).2.1 ++
           (exec (bOps ι) s.env (⟨[Atom.var (e + 1)], [Atom.var (e + 2)], (NOp.det (bUn p)).rule⟩ : Eqn (BCell ι) F (LState ι))).2.2.1) := by
        refine top_progressed hsz (q := ⟨[Atom.var (e + 1)], [Atom.var (e + 2)], (NOp.det (bUn p)).rule⟩) ?_ s.env (e + 1) h0 ?_
        · refine List.mem_of_getElem? (i := e + 1) ?_
          rw [chain_eqn, hpe]; rfl
        · rw [hexec]; simp
      refine ⟨e + 1, by omega, by omega, ?_, ?_, ?_, ?_⟩
      · intro i hi hi'
        simp only
        rw [hexec]
        by_cases a1 : i = e + 1
        · subst a1; simp
        · rw [if_neg a1]; exact h.known i (by omega) hi'
      · intro i hi
        simp only
        rw [hexec, if_neg (by omega)]
        exact h.unknown i (by omega)
      · intro he0
        refine (hp.mem (e + 1 - 1)).2 (.inr ⟨by omega, e + 1, hx, ?_⟩)
        obtain ⟨e', rfl⟩ : ∃ e', e = e' + 1 := ⟨e - 1, by omega⟩
        refine ⟨⟨[Atom.var (e' + 1)], [Atom.var (e' + 2)], (NOp.det (bUn (ps[e']'(by omega)))).rule⟩, ?_, by simp [Atom.node]⟩
        show (srcChain src ins ps).jaxpr.eqns[e' + 1]? = _
        rw [chain_eqn, List.getElem?_eq_getElem (by omega)]
        rfl
      · intro he1
        obtain rfl : e = 0 := by omega
        exact .inl ((hp.mem 0).2 (.inr ⟨by omega, 1, hx, hnb0⟩))
    · -- both known
      have h0 := h.known (e + 1) (by omega) (by omega)
      have h1 := h.known (e + 2) (by omega) (by omega)
      have hexec : (exec (bOps ι) s.env (⟨[Atom.var (e + 1)], [Atom.var (e + 2)], (NOp.det (bUn p)).rule⟩ : Eqn (BCell ι) F (LState ι))).1 = s.env := by
        funext i
        simp only [List.map_cons, List.map_nil, Propagate.read, exec, h0, h1, NOp.rule, bUn, writeAll, write, bOps]
        by_cases a1 : i = e + 1
        · subst a1; simp [h0]
        · by_cases a2 : i = e + 2
          · subst a2; simp [h1]
          · simp [a1, a2]
      refine ⟨k, h.pos, h.le, ?_, ?_, ?_, ?_⟩
      · intro i hi hi'; simp only; rw [hexec]; exact h.known i hi hi'
      · intro i hi; simp only; rw [hexec]; exact h.unknown i hi
      · intro hk
        have := h.queued hk
        rw [hq] at this
        rcases List.mem_cons.1 this with h' | h'
        · omega
        · exact (hp.mem _).2 (.inl h')
      · intro hk
        simp only [hexec]
        rcases h.state hk with h2 | h2
        · exact .inl (hkeep0 h2)
        · right; simpa using h2

theorem writeAll_nones (env : Env (BCell ι)) (as : List (Atom F)) (cs : List (BCell ι))
    (hall : ∀ (j x : Nat) (c : BCell ι), as[j]? = some (Atom.var x) → cs[j]? = some c → c = none) :
    (writeAll (bOps ι) env as cs).1 = env := by
  induction as generalizing env cs with
  | nil => cases cs <;> rfl
  | cons a as ih =>
    obtain _ | ⟨c, cs⟩ := cs
    · rfl
    · simp only [writeAll]
      rw [ih]
      · cases a with
        | lit v => rfl
        | drop x => rfl
        | var x =>
          have := hall 0 x c (by simp) (by simp)
          subst this
          funext z
          simp only [write, bOps]
          by_cases hz : z = x
          · subst hz; simp
          · simp [hz]
      · intro j x c h1 h2
        exact hall (j + 1) x c (by simpa using h1) (by simpa using h2)

theorem chain_initEnv (src : NOp ι) (ins ps) (c : BCell ι) (i : Nat) :
    initEnv (bOps ι) (srcChain src ins ps).jaxpr [] [none] [c] i = if i = ps.length + 1 then c else none := by
  unfold initEnv
  rw [writeAll_nones]
  · simp only [srcChain, NProg.jaxpr, writeAll, write, bOps]
    by_cases hi : i = ps.length + 1
    · subst hi; cases c <;> simp
    · by_cases hi0 : i = 0
      · subst hi0; simp
      · simp [hi, hi0]
  · intro j x c h1 h2
    rw [List.getElem?_map, h1] at h2
    simp only [Option.map_some, Option.some.injEq] at h2
    rw [← h2]; rfl

theorem chain_init (src : NOp ι) (ins ps st) (h0 : Atom.var 0 ∈ ins) (y : ι → F × F) (s : St (BCell ι) (LState ι))
    (h : Init (bOps ι) (srcChain src ins ps).jaxpr [] [none] [some y] s) : CInv st ps y (ps.length + 1) s := by
  obtain ⟨henv, hq, hst⟩ := h
  have hval : ∀ i, s.env i = if i = ps.length + 1 then some y else none := by
    intro i
    rw [henv]; exact chain_initEnv src ins ps (some y) i
  refine ⟨by omega, Nat.le_refl _, ?_, ?_, ?_, ?_⟩
  · intro i h1 h2
    have : i = ps.length + 1 := by omega
    subst this
    rw [hval]; simp [pulls]
  · intro i hi
    rw [hval, if_neg (by omega)]
  · intro hk
    rw [hq.2]
    refine ⟨ps.length + 1, by simp [srcChain, NProg.jaxpr, Atom.node], ?_⟩
    obtain ⟨n, hn⟩ : ∃ n, ps.length = n + 1 := ⟨ps.length - 1, by omega⟩
    refine ⟨⟨[Atom.var (n + 1)], [Atom.var (n + 2)], (NOp.det (bUn (ps[n]'(by omega)))).rule⟩, ?_, by simp [Atom.node, hn]⟩
    rw [show ps.length + 1 - 1 = n + 1 by omega, chain_eqn, List.getElem?_eq_getElem (by omega)]
    rfl
  · intro _
    left
    rw [hq.2]
    refine ⟨0, by simp [srcChain, NProg.jaxpr, Atom.node], ⟨ins, [Atom.var 1], src.rule⟩, rfl, ?_⟩
    simp only [List.map_append, List.mem_append, List.mem_map]
    exact .inl ⟨_, h0, rfl⟩

/-- The end of a run started with the output known. -/
theorem chain_end (src : NOp ι) (ins ps st) (hz : SizedSrc src ins) (hpass : Passes src ins st) (h0 : Atom.var 0 ∈ ins)
    (y : ι → F × F) (s : St (BCell ι) (LState ι)) (h : Run (srcChain src ins ps) [none] [some y] s) :
    s.env 0 = none ∧ s.env 1 = some (fun j => pulls ps (y j)) ∧ s.env (ps.length + 1) = some y ∧
      s.states 0 = some (st (some (fun j => pulls ps (y j)))) := by
  obtain ⟨s0, hi, hs, hq⟩ := h
  have hk : ∃ k, CInv st ps y k s := by
    clear hq
    induction hs with
    | refl => exact ⟨_, chain_init src ins ps st h0 y s0 hi⟩
    | tail t u _ hst ih => obtain ⟨k, hk⟩ := ih; exact chain_step src ins ps st hz hpass y k t u hk hst
  obtain ⟨k, hk⟩ := hk
  have hk1 : k = 1 := by
    by_contra hne
    have := hk.queued (by have := hk.pos; omega)
    rw [hq] at this; simp at this
  subst hk1
  have h1 := hk.known 1 (Nat.le_refl _) (by omega)
  have h2 := hk.known (ps.length + 1) (by omega) (Nat.le_refl _)
  simp only [Nat.sub_self, List.drop_zero] at h1
  simp [pulls] at h2
  refine ⟨hk.unknown 0 (by omega), h1, h2, ?_⟩
  rcases hk.state rfl with h3 | h3
  · rw [hq] at h3; simp at h3
  · rw [h3, h1]

/-- The end of a run started with nothing known. -/
theorem chain_end_none (src : NOp ι) (ins ps st) (hpass : Passes src ins st)
    (s : St (BCell ι) (LState ι)) (h : Run (srcChain src ins ps) [none] [none] s) : ∀ i, s.env i = none := by
  obtain ⟨s0, hi, hs, hq⟩ := h
  clear hq
  induction hs with
  | refl => intro i; rw [hi.1, chain_initEnv]; simp
  | tail t u _ hst ih =>
    cases hst with
    | mk e rest q q' hq he hp =>
      cases e with
      | zero =>
        simp only [srcChain, NProg.jaxpr, List.map_cons, List.getElem?_cons_zero, Option.some.injEq] at he
        subst he
        intro i
        simp only
        rw [(src_exec src ins st hpass t.env (ih 0)).1]; exact ih i
      | succ e =>
        rw [chain_eqn] at he
        rcases hpe : ps[e]? with _ | p
        · rw [hpe] at he; simp at he
        rw [hpe] at he
        simp only [Option.map_some, Option.some.injEq] at he
        subst he
        intro i
        simp only [List.map_cons, List.map_nil, Propagate.read, exec, ih, NOp.rule, bUn, writeAll, write, bOps]
        simp

/-- The result of a run started with the output known. -/
theorem chain_finish (src : NOp ι) (ins ps st) (hz : SizedSrc src ins) (hpass : Passes src ins st) (h0 : Atom.var 0 ∈ ins)
    (y : ι → F × F) (s : St (BCell ι) (LState ι)) (h : Run (srcChain src ins ps) [none] [some y] s)
    (l : ι → F) (hl : st (some (fun j => pulls ps (y j))) = some (some l)) :
    finish (srcChain src ins ps) s = some (fun j => addF (l j) (if src.reg then (pulls ps (y j)).2 else some 0)) := by
  obtain ⟨-, e1, -, e2⟩ := chain_end src ins ps st hz hpass h0 y s h
  rw [hl] at e2
  have hsz := srcChain_sized src ins ps hz
  have hdet : ∀ (e : Nat) q, (srcChain src ins ps).eqns[e + 1]? = some q → q.op.reg = false ∧ (s.states (e + 1)).join = none := by
    intro e q he
    have he' := he
    simp only [srcChain, List.getElem?_cons_succ, List.getElem?_mapIdx, Option.map_eq_some_iff] at he
    obtain ⟨p, -, rfl⟩ := he
    refine ⟨rfl, ?_⟩
    rcases unvisited _ hsz h (e + 1) _ he' with hno | ⟨env, hvis⟩
    · rw [hno]; rfl
    · rw [hvis.state]; simp [exec, NOp.rule]
  rw [finish_iff]
  refine ⟨?_, ?_⟩
  · intro e q he
    cases e with
    | zero => rw [e2]; simp
    | succ e =>
      obtain ⟨h1, h2⟩ := hdet e q he
      rw [h1, h2]; simp
  · funext j
    have hz' : ∀ l : List (NEqn ι × Nat), (∀ p ∈ l, term s j p = some 0) → sumF (l.map (term s j)) = some 0 := by
      intro l
      induction l with
      | nil => intro _; rfl
      | cons p l ih =>
        intro hall
        simp only [List.map_cons, sumF, List.foldr_cons]
        rw [hall p (by simp), addF_zero_left]
        exact ih (fun q hq => hall q (by simp [hq]))
    simp only [srcChain, List.zipIdx_cons, List.map_cons, sumF, List.foldr_cons]
    have hrest := hz' ((ps.mapIdx (fun i p => (⟨.det (bUn p), [Atom.var (i + 1)], [Atom.var (i + 2)]⟩ : NEqn ι))).zipIdx (0 + 1)) (by
      rintro ⟨q, e⟩ hp
      obtain ⟨e', he', hq⟩ : ∃ e', e = e' + 1 ∧ (ps.mapIdx (fun i p => (⟨.det (bUn p), [Atom.var (i + 1)], [Atom.var (i + 2)]⟩ : NEqn ι)))[e']? = some q := by
        have := List.mk_mem_zipIdx_iff_le_and_getElem?_sub.1 hp
        exact ⟨e - 1, by omega, by simpa using this.2⟩
      subst he'
      simp only [term]
      rw [(hdet e' q (by simpa [srcChain] using hq)).2])
    simp only [sumF] at hrest
    rw [hrest, addF_zero_right]
    simp only [term, e2, Option.join_some]
    congr 1
    split
    · simp [ildjSum, Propagate.read, e1, addF_zero_left]
    · rfl

end Verif.LogProb.Nested
