import Verif.LogProb.NestedInv

/-! C58: `log_prob` of programs with nested calls. -/
namespace Verif.LogProb.Nested

open Verif.Propagate Verif.Inverse

variable {ι : Type}

/-- The contribution of an equation: the state it left plus, for the primitives of `log_prob_registry`, the ILDJs of
its outputs. -/
noncomputable def term (s : St (BCell ι) (LState ι)) (j : ι) (p : NEqn ι × Nat) : F :=
  match (s.states p.2).join with
  | some (some l) => addF (l j) (if p.1.op.reg then ildjSum (p.1.outs.map (Propagate.read (bOps ι) s.env)) j else some 0)
  | _ => some 0

/-- When the reduction succeeds, and with which value. -/
theorem finish_iff (P : NProg ι) (s : St (BCell ι) (LState ι)) (t : ι → F) :
    finish P s = some t ↔
      (∀ (e : Nat) q, P.eqns[e]? = some q → (s.states e).join ≠ some none ∧ (q.op.reg = true → (s.states e).join ≠ none)) ∧
      t = fun j => sumF ((P.eqns.zipIdx).map (term s j)) := by
  have hnone : ∀ l : List (NEqn ι × Nat), l.foldl (fun r p => reduce s.env p.1 r (s.states p.2).join) none = none := by
    intro l
    induction l with
    | nil => rfl
    | cons p l ih => simpa [reduce] using ih
  have key : ∀ (l : List (NEqn ι × Nat)) (c : ι → F),
      l.foldl (fun r p => reduce s.env p.1 r (s.states p.2).join) (some c) = some t ↔
      (∀ p ∈ l, (s.states p.2).join ≠ some none ∧ (p.1.op.reg = true → (s.states p.2).join ≠ none)) ∧
      t = fun j => addF (c j) (sumF (l.map (term s j))) := by
    intro l
    induction l with
    | nil =>
      intro c
      simp only [List.foldl_nil, Option.some.injEq, List.not_mem_nil, false_implies, implies_true, List.map_nil, sumF,
        List.foldr_nil, addF_zero_right, true_and]
      exact eq_comm
    | cons p l ih =>
      intro c
      simp only [List.foldl_cons, List.forall_mem_cons]
      rcases hst : (s.states p.2).join with _ | _ | v
      · by_cases hr : p.1.op.reg = true
        · rw [show reduce s.env p.1 (some c) none = none by simp [reduce, hr], hnone]
          simp [hr]
        · rw [show reduce s.env p.1 (some c) none = some c by simp [reduce, hr], ih]
          simp [term, hst, sumF, addF_zero_left, hr]
      · rw [show reduce s.env p.1 (some c) (some none) = none from rfl, hnone]
        simp
      · rw [show reduce s.env p.1 (some c) (some (some v)) = some (fun j => addF (addF (c j) (v j))
          (if p.1.op.reg then ildjSum (p.1.outs.map (Propagate.read (bOps ι) s.env)) j else some 0)) from rfl, ih]
        simp only [ne_eq, Option.some.injEq, reduceCtorEq, not_false_eq_true, implies_true, and_self, true_and,
          List.map_cons, sumF, List.foldr_cons, term, hst, addF_assoc]
  unfold finish
  rw [key]
  constructor
  · rintro ⟨h1, h2⟩
    refine ⟨fun e q he => h1 (q, e) (List.mem_zipIdx_iff_getElem?.2 he), ?_⟩
    rw [h2]; funext j; rw [addF_zero_left]
  · rintro ⟨h1, h2⟩
    refine ⟨fun p hp => h1 p.2 p.1 (List.mem_zipIdx_iff_getElem?.1 hp), ?_⟩
    rw [h2]; funext j; rw [addF_zero_left]

/-- Every random variable or plate equation has a value. -/
def HasValues (P : NProg ι) : Prop := ∀ q ∈ P.eqns, q.op.reg = true → ∃ x, some x ∈ q.outs.map Atom.node

/-- C58.  For every program with calls and plates and every complete run: `log_prob` returns a value if and only if
the parameters and the value of every random variable of the program itself have been recovered, no call that was
propagated through failed, and every plate was propagated through. -/
theorem nested_log_prob_returns_iff (P : NProg ι) (hs : Sized P.jaxpr) (hv : HasValues P) (i o : List (BCell ι))
    (s : St (BCell ι) (LState ι)) (h : Run P i o s) :
    (∃ t, finish P s = some t) ↔
      (∀ q ∈ P.eqns, ∀ nc d, q.op = .rv nc d → ∀ x, some x ∈ (q.needs nc).map Atom.node → s.env x ≠ none) ∧
      (∀ (e : Nat) q r, P.eqns[e]? = some q → q.op = .call r → s.states e ≠ some (some none)) ∧
      (∀ (e : Nat) q r, P.eqns[e]? = some q → q.op = .plate r → ∃ v, s.states e = some (some (some v))) := by
  have hrv : ∀ (e : Nat) q nc d, P.eqns[e]? = some q → q.op = .rv nc d →
      ((s.states e).join ≠ none ↔ ∀ x, some x ∈ (q.needs nc).map Atom.node → s.env x ≠ none) := by
    intro e q nc d he hq
    have hneeds : ∀ x, some x ∈ (q.needs nc).map Atom.node → some x ∈ q.vars := by
      intro x hx
      simp only [NEqn.needs, NEqn.vars, List.map_append, List.mem_append, List.map_drop] at hx ⊢
      rcases hx with hx | hx
      · exact .inl (List.mem_of_mem_drop (List.mem_of_mem_drop hx))
      · exact .inr hx
    have hstate : ∀ env, Visit P i o s e q env → ((s.states e).join ≠ none ↔ ∀ x, some x ∈ (q.needs nc).map Atom.node → env x ≠ none) := by
      intro env hvis
      rw [hvis.state, Option.join_some, ← rvRule_state env nc d q]
      simp only [exec, hq, NOp.rule]
    constructor
    · intro hne x hx
      rcases unvisited P hs h e q he with hno | ⟨env, hvis⟩
      · rw [hno] at hne; exact absurd rfl hne
      · apply hvis.before
        rw [rv_exec env q nc d hq]
        exact (hstate env hvis).1 hne x hx
    · intro hall
      obtain ⟨x, hx⟩ := hv q (List.mem_of_getElem? he) (by rw [hq]; rfl)
      have hxn : some x ∈ (q.needs nc).map Atom.node := by simp only [NEqn.needs, List.map_append, List.mem_append]; exact .inr hx
      obtain ⟨env, hvis⟩ := visited P hs h e q he (.inr ⟨x, hneeds x hxn, hall x hxn⟩)
      rw [hstate env hvis]
      intro y hy
      rcases hvis.after with hin | hin
      · rw [h.choose_spec.2.2] at hin; simp at hin
      · have := hin y (hneeds y hy) (hall y hy)
        rwa [rv_exec env q nc d hq] at this
  constructor
  · rintro ⟨t, ht⟩
    obtain ⟨h1, -⟩ := (finish_iff P s t).1 ht
    refine ⟨?_, ?_, ?_⟩
    · intro q hq nc d hqd
      obtain ⟨e, he⟩ := List.mem_iff_getElem?.1 hq
      exact (hrv e q nc d he hqd).1 ((h1 e q he).2 (by rw [hqd]; rfl))
    · intro e q r he _ hst
      apply (h1 e q he).1
      rw [hst]; rfl
    · intro e q r he hqr
      have h2 := (h1 e q he).2 (by rw [hqr]; rfl)
      have h3 := (h1 e q he).1
      rcases hst : s.states e with _ | _ | _ | v
      · rw [hst] at h2; exact absurd rfl h2
      · rw [hst] at h2; exact absurd rfl h2
      · rw [hst] at h3; exact absurd rfl h3
      · exact ⟨v, rfl⟩
  · rintro ⟨h1, h2, h3⟩
    refine ⟨_, (finish_iff P s _).2 ⟨?_, rfl⟩⟩
    intro e q he
    rcases hop : q.op with r | ⟨nc, d⟩ | r | r
    · refine ⟨?_, by simp [NOp.reg]⟩
      rcases unvisited P hs h e q he with hno | ⟨env, hvis⟩
      · rw [hno]; simp
      · rw [hvis.state]; simp [exec, hop, NOp.rule]
    · have := (hrv e q nc d he hop).2 (h1 q (List.mem_of_getElem? he) nc d hop)
      refine ⟨?_, fun _ => this⟩
      rcases unvisited P hs h e q he with hno | ⟨env, hvis⟩
      · rw [hno]; simp
      · rw [hvis.state]
        simp only [exec, hop, NOp.rule, rvRule, Option.join_some]
        split <;> simp
    · refine ⟨fun hj => h2 e q r he hop ?_, by simp [NOp.reg]⟩
      exact Option.join_eq_some_iff.1 hj
    · obtain ⟨v, hv'⟩ := h3 e q r he hop
      rw [hv']; simp

/-- Programs whose calls, to any depth, all mention an input or an output of the program they are in: `callee e` is
the body of the call at position `e`.  (Calls of a `jit` or `nest` that is applied to the function's own arguments, or
whose result is returned.) -/
inductive WellNested : NProg ι → Prop
  | mk (P : NProg ι) (callee : Nat → NProg ι) (sized : Sized P.jaxpr) (values : HasValues P)
      (noPlate : ∀ q ∈ P.eqns, ∀ r, q.op ≠ .plate r)
      (calls : ∀ (e : Nat) q r, P.eqns[e]? = some q → q.op = .call r →
        Calls (callee e) r ∧ q.ins.length = (callee e).invars.length ∧ q.outs.length = (callee e).outvars.length ∧
          Adjacent P q)
      (inner : ∀ (e : Nat) q r, P.eqns[e]? = some q → q.op = .call r → WellNested (callee e)) : WellNested P

/-- `t` counts every random variable of the run `s` of `P` and of the calls in it, to any depth: it is the sum, over
the equations, of 0 for a deterministic one; for a random variable, all of whose parameters and values are known, its
log-density there plus the ILDJs of its value; for a call, what is counted in a run of the callee. -/
inductive Counted : NProg ι → List (BCell ι) → List (BCell ι) → St (BCell ι) (LState ι) → (ι → F) → Prop
  | mk (P : NProg ι) (i o : List (BCell ι)) (s : St (BCell ι) (LState ι)) (v : Nat → ι → F) (callee : Nat → NProg ι)
      (ci co : Nat → List (BCell ι)) (run : Nat → St (BCell ι) (LState ι))
      (det : ∀ (e : Nat) q r, P.eqns[e]? = some q → q.op = .det r → v e = fun _ => some 0)
      (rv : ∀ (e : Nat) q nc d, P.eqns[e]? = some q → q.op = .rv nc d →
        (∀ x, some x ∈ (q.needs nc).map Atom.node → s.env x ≠ none) ∧
        ∃ env ps vs, Seen P i o env ∧ tops (((q.ins.drop nc).drop 1).map (Propagate.read (bOps ι) env)) = some ps ∧
          tops (q.outs.map (Propagate.read (bOps ι) env)) = some vs ∧
          ∀ j, v e j = addF (d (ps.map (fun c => (c j).1)) (vs.map (fun c => (c j).1)))
            (ildjSum (q.outs.map (Propagate.read (bOps ι) s.env)) j))
      (call : ∀ (e : Nat) q r, P.eqns[e]? = some q → q.op = .call r → Calls (callee e) r ∧
        Run (callee e) (ci e) (co e) (run e) ∧
        ∃ env, Seen P i o env ∧ ci e = q.ins.map (Propagate.read (bOps ι) env) ∧ co e = q.outs.map (Propagate.read (bOps ι) env))
      (inner : ∀ (e : Nat) q r, P.eqns[e]? = some q → q.op = .call r → Counted (callee e) (ci e) (co e) (run e) (v e)) :
      Counted P i o s (fun j => sumF ((List.range P.eqns.length).map (fun e => v e j)))

open Classical in
/-- C58.  If the calls of a program mention its inputs or outputs, to any depth, then a value returned by `log_prob`
counts every random variable, whatever the depth of the calls around it. -/
theorem nested_log_prob_counts_all_partial (P : NProg ι) (hw : WellNested P) : ∀ (i o : List (BCell ι))
    (s : St (BCell ι) (LState ι)) (t : ι → F), Run P i o s → finish P s = some t → Counted P i o s t := by
  induction hw with
  | mk P callee hs hv hnp hcalls _ ih =>
    intro i o s t hrun ht
    have hret := (nested_log_prob_returns_iff P hs hv i o s hrun).1 ⟨t, ht⟩
    obtain ⟨h1, rfl⟩ := (finish_iff P s t).1 ht
    have hcall : ∀ e : Nat, ∃ (s' : St (BCell ι) (LState ι)) (i' o' : List (BCell ι)), ∀ q r, P.eqns[e]? = some q → q.op = .call r →
        Run (callee e) i' o' s' ∧ (∃ env, Seen P i o env ∧ i' = q.ins.map (Propagate.read (bOps ι) env) ∧
          o' = q.outs.map (Propagate.read (bOps ι) env)) ∧ (s.states e).join = some (finish (callee e) s') := by
      intro e
      by_cases hex : ∃ q r, P.eqns[e]? = some q ∧ q.op = .call r
      · obtain ⟨q, r, he, hq⟩ := hex
        obtain ⟨c1, c2, c3, c4⟩ := hcalls e q r he hq
        obtain ⟨env, hvis⟩ := visited P hs hrun e q he (.inl c4)
        obtain ⟨s', hr, heq⟩ := c1 (q.ins.map (Propagate.read (bOps ι) env)) (q.outs.map (Propagate.read (bOps ι) env))
          (by simp [c2]) (by simp [c3])
        refine ⟨s', _, _, fun q' r' he' hq' => ⟨hr, ⟨env, hvis.seen, ?_⟩, ?_⟩⟩
        · rw [he] at he'; obtain rfl := Option.some.inj he'; exact ⟨rfl, rfl⟩
        rw [hvis.state]
        simp only [exec, hq, NOp.rule, heq, Option.join_some]
      · exact ⟨s, [], [], fun q r he hq => absurd ⟨q, r, he, hq⟩ hex⟩
    choose run ci co hrun' using hcall
    let v : Nat → ι → F := fun e j => match P.eqns[e]? with | some q => term s j (q, e) | none => some 0
    have hsum : (fun j => sumF ((P.eqns.zipIdx).map (term s j))) =
        fun j => sumF ((List.range P.eqns.length).map (fun e => v e j)) := by
      funext j
      congr 1
      apply List.ext_getElem?
      intro e
      simp only [List.getElem?_map, List.getElem?_zipIdx]
      by_cases hlt : e < P.eqns.length
      · rw [List.getElem?_range hlt, List.getElem?_eq_getElem hlt]
        simp only [Option.map_some, v, List.getElem?_eq_getElem hlt]
        simp
      · rw [List.getElem?_eq_none (by omega), List.getElem?_eq_none (by simp; omega)]
        rfl
    rw [hsum]
    refine Counted.mk P i o s v callee ci co run ?_ ?_ ?_ ?_
    · intro e q r he hq
      funext j
      simp only [v, he, term]
      rcases unvisited P hs hrun e q he with hno | ⟨env, hvis⟩
      · rw [hno]; rfl
      · rw [hvis.state]; simp [exec, hq, NOp.rule]
    · intro e q nc d he hq
      refine ⟨hret.1 q (List.mem_of_getElem? he) nc d hq, ?_⟩
      have hne := (h1 e q he).2 (by rw [hq]; rfl)
      rcases unvisited P hs hrun e q he with hno | ⟨env, hvis⟩
      · rw [hno] at hne; exact absurd rfl hne
      · have hst := hvis.state
        simp only [exec, hq, NOp.rule, rvRule] at hst
        rw [hst] at hne
        split at hst
        · rename_i ps vs hps hvs
          refine ⟨env, ps, vs, hvis.seen, by rw [List.map_drop, List.map_drop]; exact hps, hvs, fun j => ?_⟩
          simp only [v, he, term, hst, Option.join_some, hq, NOp.reg, if_true]
        · rename_i hno
          exfalso
          apply hne
          split
          · rename_i a b ha hb; exact absurd hb (hno a b ha)
          · rfl
    · intro e q r he hq
      exact ⟨(hcalls e q r he hq).1, (hrun' e q r he hq).1, (hrun' e q r he hq).2.1⟩
    · intro e q r he hq
      obtain ⟨hr, -, hst⟩ := hrun' e q r he hq
      refine ih e q r he hq (ci e) (co e) (run e) (v e) hr ?_
      rcases hfin : finish (callee e) (run e) with _ | w
      · rw [hfin] at hst; exact absurd hst (h1 e q he).1
      · congr 1
        rw [hfin] at hst
        funext j
        simp only [v, he, term, hst, hq, NOp.reg]
        simp [addF_zero_right]

end Verif.LogProb.Nested
