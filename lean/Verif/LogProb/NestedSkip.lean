import Verif.LogProb.NestedThms

/-! C58: a call that no known variable reaches is left out of the sum. -/
namespace Verif.LogProb.Nested

open Verif.Propagate Verif.Inverse

variable {ι : Type}

/-- The rule of a primitive without inverse (inverse/core.py:205-223; `Verif.Inverse.defRule`), with the
`NotImplementedError` turned into no change (log_prob.py:135-139), index by index. -/
def bDef (h : List F → List F) (i o : List (BCell ι)) : List (BCell ι) × List (BCell ι) :=
  if o.all (·.isNone) then
    match tops i with
    | some cs => (i, (List.range o.length).map (fun k => some (fun j => (((h (cs.map (fun c => (c j).1)))[k]?).getD none, some 0))))
    | none => (i, o)
  else (i, o)

/-- `k = split(key); z = src(k); return h(z)` where neither `split` nor `h` has an inverse. -/
def skipProg (split h : List F → List F) (src : NOp ι) : NProg ι :=
  ⟨[.var 0], [.var 3], [⟨.det (bDef split), [.var 0], [.var 1]⟩, ⟨src, [.var 1], [.var 2]⟩, ⟨.det (bDef h), [.var 2], [.var 3]⟩]⟩

structure SkipInv (c : ι → F × F) (s : St (BCell ι) (LState ι)) : Prop where
  env : ∀ x, s.env x = if x = 3 then some c else none
  queue : 1 ∉ s.queue
  states : ∀ e, (s.states e).join = none

theorem skip_step (split h : List F → List F) (src : NOp ι) (c : ι → F × F) {s t : St (BCell ι) (LState ι)}
    (hi : SkipInv c s) (hst : Step (bOps ι) (skipProg split h src).jaxpr s t) : SkipInv c t := by
  cases hst with
  | mk e rest q q' hq he hp =>
    have h0 := hi.env 0
    have h1 := hi.env 1
    have h2 := hi.env 2
    have h3 := hi.env 3
    simp at h0 h1 h2 h3
    have hne : 1 ∉ rest := by
      intro h'; apply hi.queue; rw [hq]; exact List.mem_cons_of_mem _ h'
    match e with
    | 0 =>
      obtain rfl : (⟨[.var 0], [.var 1], (NOp.det (bDef split)).rule⟩ : Eqn (BCell ι) F (LState ι)) = q := Option.some.inj he
      simp [progressed, exec, Propagate.read, h0, h1, NOp.rule, bDef, tops, writeAll, write, bOps] at hp ⊢
      cases hp
      refine ⟨?_, hne, ?_⟩
      · intro x
        have := hi.env x
        by_cases a : x = 1
        · subst a; simp
        · by_cases b : x = 0
          · subst b; simp
          · simpa [a, b] using this
      · intro e
        by_cases a : e = 0
        · simp [a]
        · simpa [a] using hi.states e
    | 1 => exact absurd (by rw [hq]; simp) hi.queue
    | 2 =>
      obtain rfl : (⟨[.var 2], [.var 3], (NOp.det (bDef h)).rule⟩ : Eqn (BCell ι) F (LState ι)) = q := Option.some.inj he
      simp [progressed, exec, Propagate.read, h2, h3, NOp.rule, bDef, tops, writeAll, write, bOps] at hp ⊢
      cases hp
      refine ⟨?_, hne, ?_⟩
      · intro x
        have := hi.env x
        by_cases a : x = 3
        · subst a; simp
        · by_cases b : x = 2
          · subst b; simp
          · simpa [a, b] using this
      · intro e
        by_cases a : e = 2
        · simp [a]
        · simpa [a] using hi.states e
    | e + 3 => simp [skipProg, NProg.jaxpr] at he

theorem skip_run (split h : List F → List F) (src : NOp ι) (c : ι → F × F) (s : St (BCell ι) (LState ι))
    (hr : Run (skipProg split h src) [none] [some c] s) : SkipInv c s := by
  obtain ⟨s0, hi, hs, -⟩ := hr
  induction hs with
  | refl =>
    obtain ⟨henv, hq, hst⟩ := hi
    refine ⟨?_, ?_, fun e => by rw [hst]; rfl⟩
    · intro x
      rw [henv]
      unfold initEnv
      rw [writeAll_nones]
      · simp only [skipProg, NProg.jaxpr, writeAll, write, bOps]
        by_cases a : x = 3
        · subst a; simp
        · by_cases b : x = 0
          · subst b; simp
          · simp [a, b]
      · intro j x c h1 h2
        rw [List.getElem?_map, h1] at h2
        simp only [Option.map_some, Option.some.injEq] at h2
        rw [← h2]; rfl
    · rw [hq.2]
      rintro ⟨x, hx, q, hq', hx'⟩
      obtain rfl : (⟨[.var 1], [.var 2], src.rule⟩ : Eqn (BCell ι) F (LState ι)) = q := Option.some.inj hq'
      simp [skipProg, NProg.jaxpr, Atom.node] at hx hx'
      omega
  | tail t u _ hst ih => exact skip_step split h src c ih hst

/-- C58 fails for calls that no recovered variable reaches: with `z` drawn in a `jit` or `nest`, `log_prob` returns 0,
whatever the distribution of `z`, instead of raising an exception ... -/
theorem unreached_call_is_not_counted (split h : List F → List F) (r : Rule ι) (y : ι → F) (res : Option (ι → F))
    (hr : LogProb (skipProg split h (.call r)) [] [y] res) : res = some (fun _ => some 0) := by
  obtain ⟨s, hrun, rfl⟩ := hr
  have hi := skip_run split h (.call r) _ s hrun
  refine (finish_iff _ s _).2 ⟨?_, ?_⟩
  · intro e q he
    rw [hi.states e]
    refine ⟨by simp, fun hreg => ?_⟩
    match e with
    | 0 => obtain rfl := Option.some.inj he; simp [NOp.reg] at hreg
    | 1 => obtain rfl := Option.some.inj he; simp [NOp.reg] at hreg
    | 2 => obtain rfl := Option.some.inj he; simp [NOp.reg] at hreg
    | e + 3 => simp [skipProg] at he
  · funext j
    simp [skipProg, term, hi.states, sumF, addF_zero_left]

/-- ... which is what happens if `z` is drawn without the call. -/
theorem without_the_call_it_raises (split h : List F → List F) (d) (y : ι → F) (res : Option (ι → F))
    (hr : LogProb (skipProg split h (.rv 0 d)) [] [y] res) : res = none := by
  obtain ⟨s, hrun, rfl⟩ := hr
  have hi := skip_run split h (.rv 0 d) _ s hrun
  rcases hf : finish (skipProg split h (.rv 0 d)) s with _ | t
  · rfl
  · exfalso
    have := ((finish_iff _ s t).1 hf).1 1 _ rfl
    exact this.2 rfl (hi.states 1)

/-- Such a call exists: the body draws from a normal distribution, say. -/
example (d : List F → List F → F) : ∃ r : Rule ι, Calls (srcChain (.rv 0 d) [Atom.var 0] []) r ∧
    ∀ split h y res, LogProb (skipProg split h (.call r)) [] [y] res → res = some (fun _ => some 0) := by
  obtain ⟨r, hr⟩ := calls_exists (ι := ι) (srcChain (.rv 0 d) [Atom.var 0] [])
    (srcChain_sized _ _ _ (rv_sized [] d))
  exact ⟨r, hr, fun split h y res => unreached_call_is_not_counted split h r y res⟩

/-- Three levels of calls: `log_prob` of `exp(jit(nest(-rv)))`. -/
example (params : List F) (d : List F → List F → F) : ∃ P : NProg Unit, Nest params d [[.exp], [], [.neg]] P ∧
    ∃ res, LogProb P [] [fun _ => some 2] res := by
  have h1 : Nest (ι := Unit) params d [[.neg]] _ := .rv [.neg]
  obtain ⟨hs1, -⟩ := nest_body params d _ _ h1
  obtain ⟨r1, hr1⟩ := calls_exists _ hs1
  have h2 := Nest.call _ _ r1 [] h1 hr1
  obtain ⟨hs2, -⟩ := nest_body params d _ _ h2
  obtain ⟨r2, hr2⟩ := calls_exists _ hs2
  have h3 := Nest.call _ _ r2 [.exp] h2 hr2
  obtain ⟨hs3, -⟩ := nest_body params d _ _ h3
  exact ⟨_, h3, nested_log_prob_terminates _ hs3 _ _⟩

/-- A plate over three indices. -/
example (params : List F) (d : List F → List F → F) (ps : List Un) : ∃ P : NProg (Fin 3), PlateChain params d [[.neg]] ps P ∧
    ∃ res, LogProb P [] [fun _ => some 2] res := by
  have h1 : Nest (ι := Fin 3) params d [[.neg]] _ := .rv [.neg]
  obtain ⟨hs1, hb⟩ := nest_body params d _ _ h1
  obtain ⟨r1, hr1⟩ := plateCalls_exists _ hs1
  obtain ⟨z, -, -⟩ := plate_src _ hs1 _ hb r1 hr1
  exact ⟨_, ⟨_, r1, h1, hr1, rfl⟩, nested_log_prob_terminates _ (srcChain_sized _ _ ps z) _ _⟩

/-- The hypothesis of `nested_log_prob_counts_all_partial` holds for the nested programs above. -/
theorem nest_wellNested (params d pss) (P : NProg ι) (h : Nest params d pss P) : WellNested P := by
  have hvals : ∀ (src : NOp ι) ins ps, HasValues (srcChain src ins ps) := by
    intro src ins ps q hq hreg
    simp only [srcChain, List.mem_cons] at hq
    rcases hq with rfl | hq
    · exact ⟨1, by simp [Atom.node]⟩
    · obtain ⟨i, hi, rfl⟩ := List.mem_mapIdx.1 hq
      simp [NOp.reg] at hreg
  have hnp : ∀ (src : NOp ι) ins ps, (∀ r, src ≠ .plate r) → ∀ q ∈ (srcChain src ins ps).eqns, ∀ r, q.op ≠ .plate r := by
    intro src ins ps hsrc q hq r
    simp only [srcChain, List.mem_cons] at hq
    rcases hq with rfl | hq
    · exact hsrc r
    · obtain ⟨i, hi, rfl⟩ := List.mem_mapIdx.1 hq
      simp
  have hcall : ∀ (src : NOp ι) ins ps (e : Nat) (q : NEqn ι) (r : Rule ι), (srcChain src ins ps).eqns[e]? = some q → q.op = .call r → q = ⟨src, ins, [.var 1]⟩ := by
    intro src ins ps e q r he hq
    cases e with
    | zero => exact (Option.some.inj he).symm
    | succ e =>
      simp only [srcChain, List.getElem?_cons_succ, List.getElem?_mapIdx, Option.map_eq_some_iff] at he
      obtain ⟨p, -, rfl⟩ := he
      simp at hq
  induction h with
  | rv ps =>
    refine .mk _ (fun _ => ⟨[], [], []⟩) (srcChain_sized _ _ _ (rv_sized params d)) (hvals _ _ _) (hnp _ _ _ (by simp)) ?_ ?_
    · intro e q r he hq; rw [hcall _ _ _ e q r he hq] at hq; simp at hq
    · intro e q r he hq; rw [hcall _ _ _ e q r he hq] at hq; simp at hq
  | call pss Q r ps hn hr ih =>
    obtain ⟨hs, hb⟩ := nest_body params d pss Q hn
    obtain ⟨z, -, -⟩ := call_src Q hs _ hb r hr
    refine .mk _ (fun _ => Q) (srcChain_sized _ _ _ z) (hvals _ _ _) (hnp _ _ _ (by simp)) ?_ (fun _ _ _ _ _ => ih)
    intro e q r' he hq
    obtain rfl := hcall _ _ _ e q r' he hq
    simp only [NOp.call.injEq] at hq
    subst hq
    refine ⟨hr, by rw [hb.one_in]; rfl, by rw [hb.one_out]; rfl, 0, by simp [srcChain, Atom.node], by simp [NEqn.vars, Atom.node]⟩

end Verif.LogProb.Nested
