import Verif.LogProb.NestedChain

/-! C58, C59: nested calls and plates do not change what `log_prob` returns; what goes wrong. -/
namespace Verif.LogProb.Nested

open Verif.Propagate Verif.Inverse

variable {ι : Type}

open Classical in
theorem run_exists (P : NProg ι) (hs : Sized P.jaxpr) (i o : List (BCell ι)) : ∃ s, Run P i o s := by
  have hinit : ∃ s0 : St (BCell ι) (LState ι), Init (bOps ι) P.jaxpr [] i o s0 := by
    refine ⟨⟨_, (List.range P.jaxpr.eqns.length).filter (fun e => decide (∃ x, some x ∈ (P.jaxpr.outvars ++ P.jaxpr.invars ++
      P.jaxpr.constvars).map Atom.node ∧ Nbr P.jaxpr x e)), fun _ => none⟩, rfl, ⟨List.nodup_range.filter _, fun e => ?_⟩, fun _ => rfl⟩
    simp only [List.mem_filter, List.mem_range, decide_eq_true_eq, and_iff_right_iff_imp]
    rintro ⟨x, -, q, hq, -⟩
    exact (List.getElem?_eq_some_iff.1 hq).1
  obtain ⟨s0, h0⟩ := hinit
  obtain ⟨t, ht, hq⟩ := propagate_completes (bOps ι) P.jaxpr hs (fun c => if c.isSome then 0 else 1)
      (by intro a b; cases a <;> cases b <;> simp [bOps])
      (by intro a b; cases a <;> cases b <;> simp [bOps]) _ _ _ s0 s0 h0 (.refl _)
  exact ⟨t, s0, h0, ht, hq⟩

/-- C58.  `log_prob` of a program with calls always comes to an end, with a value or an exception. -/
theorem nested_log_prob_terminates (P : NProg ι) (hs : Sized P.jaxpr) (args ys : List (ι → F)) :
    ∃ res, LogProb P args ys res := by
  obtain ⟨s, h⟩ := run_exists P hs (none :: args.map (fun a => some (fun j => (a j, some 0)))) (ys.map (fun y => some (fun j => (y j, some 0))))
  exact ⟨_, s, h, rfl⟩

/-- Every program can be called. -/
theorem calls_exists (Q : NProg ι) (hs : Sized Q.jaxpr) : ∃ r, Calls Q r := by
  choose s hs using fun i o => run_exists Q hs i o
  exact ⟨fun i o => (_, _, some (finish Q (s i o))), fun i o _ _ => ⟨s i o, hs i o, rfl⟩⟩

/-- Every program can be put in a plate. -/
theorem plateCalls_exists [Fintype ι] (Q : NProg ι) (hs : Sized Q.jaxpr) : ∃ r, PlateCalls Q r := by
  choose s hs using fun i o => run_exists Q hs i o
  exact ⟨fun i o => (_, _, some ((finish Q (s i o)).map (fun v _ => psum v))), fun i o _ _ => ⟨s i o, hs i o, rfl⟩⟩

/-- `f = p_n ∘ ... ∘ p_1 ∘ rv`, part of which is wrapped in any number of calls: the first list is applied outside of
the calls, the last one next to the random variable. -/
inductive Nest (params : List F) (d : List F → List F → F) : List (List Un) → NProg ι → Prop
  | rv (ps : List Un) : Nest params d [ps] (srcChain (.rv 0 d) (Atom.var 0 :: params.map Atom.lit) ps)
  | call (pss : List (List Un)) (Q : NProg ι) (r : Rule ι) (ps : List Un) (h : Nest params d pss Q) (hr : Calls Q r) :
      Nest params d (ps :: pss) (srcChain (.call r) [Atom.var 0] ps)

theorem tops_lits (env : Env (BCell ι)) (l : List F) :
    tops ((l.map Atom.lit).map (Propagate.read (bOps ι) env)) = some (l.map (fun v => fun _ => (v, some 0))) := by
  induction l with
  | nil => rfl
  | cons v l ih =>
    simp only [List.map_cons, tops, Propagate.read, bOps] at ih ⊢
    rw [ih]; rfl

theorem rv_passes (params d) : Passes (ι := ι) (.rv 0 d) (Atom.var 0 :: params.map Atom.lit)
    (fun c => c.map (fun c => some (fun j => d params [(c j).1]))) := by
  intro env h0
  simp only [NOp.rule, rvRule, List.map_cons, List.drop_zero, List.drop_succ_cons]
  have := tops_lits env params
  rcases h1 : env 1 with _ | c
  · simp [tops]
  · simp only [List.map_map] at this ⊢
    rw [this]
    simp [tops, Function.comp_def]

theorem rv_sized (params : List F) (d) : SizedSrc (ι := ι) (.rv 0 d) (Atom.var 0 :: params.map Atom.lit) := by
  intro i o hi ho
  simp only [NOp.rule, rvRule]
  split <;> exact ⟨hi, ho⟩

/-- What is needed of the callee of a call or a plate. -/
structure Body (Q : NProg ι) (sized : Sized Q.jaxpr) (val : (ι → F × F) → ι → F) : Prop where
  one_in : Q.invars.length = 1
  one_out : Q.outvars.length = 1
  unknown : ∀ s, Run Q [none] [none] s →
    Q.invars.map (Propagate.read (bOps ι) s.env) = [none] ∧ Q.outvars.map (Propagate.read (bOps ι) s.env) = [none]
  known : ∀ y s, Run Q [none] [some y] s →
    Q.invars.map (Propagate.read (bOps ι) s.env) = [none] ∧ Q.outvars.map (Propagate.read (bOps ι) s.env) = [some y] ∧
      finish Q s = some (val y)

theorem chain_body (src : NOp ι) (ins ps st) (hz : SizedSrc src ins) (hpass : Passes src ins st) (h0 : Atom.var 0 ∈ ins)
    (w : (ι → F × F) → ι → F) (hw : ∀ c, st (some c) = some (some (w c))) :
    Body (srcChain src ins ps) (srcChain_sized src ins ps hz)
      (fun y j => addF (w (fun j => pulls ps (y j)) j) (if src.reg then (pulls ps (y j)).2 else some 0)) := by
  refine ⟨rfl, rfl, ?_, ?_⟩
  · intro s h
    have := chain_end_none src ins ps st hpass s h
    simp [srcChain, Propagate.read, this]
  · intro y s h
    obtain ⟨h1, h2, h3, h4⟩ := chain_end src ins ps st hz hpass h0 y s h
    refine ⟨by simp [srcChain, Propagate.read, h1], by simp [srcChain, Propagate.read, h3], ?_⟩
    exact chain_finish src ins ps st hz hpass h0 y s h _ (hw _)

theorem call_src (Q : NProg ι) (hs : Sized Q.jaxpr) (val) (hb : Body Q hs val) (r : Rule ι) (hr : Calls Q r) :
    SizedSrc (.call r) [Atom.var 0] ∧ Passes (.call r) [Atom.var 0] (fun c => (r [none] [c]).2.2) ∧
      ∀ c, (r [none] [some c]).2.2 = some (some (val c)) := by
  refine ⟨?_, ?_, ?_⟩
  · intro i o hi ho
    obtain ⟨s, -, heq⟩ := hr i o (by rw [hi, hb.one_in]; rfl) (by rw [ho, hb.one_out])
    simp only [NOp.rule, heq, List.length_map, hb.one_in, hb.one_out]
    exact ⟨rfl, trivial⟩
  · intro env h0
    obtain ⟨s, hrun, heq⟩ := hr [none] [env 1] (by rw [hb.one_in]; rfl) (by rw [hb.one_out]; rfl)
    simp only [NOp.rule, List.map_cons, List.map_nil, Propagate.read, h0]
    rcases h1 : env 1 with _ | c
    · rw [h1] at heq hrun
      obtain ⟨a, b⟩ := hb.unknown s hrun
      rw [heq, a, b]
    · rw [h1] at heq hrun
      obtain ⟨a, b, -⟩ := hb.known c s hrun
      rw [heq, a, b]
  · intro c
    obtain ⟨s, hrun, heq⟩ := hr [none] [some c] (by rw [hb.one_in]; rfl) (by rw [hb.one_out]; rfl)
    rw [heq, (hb.known c s hrun).2.2]

theorem plate_src [Fintype ι] (Q : NProg ι) (hs : Sized Q.jaxpr) (val) (hb : Body Q hs val) (r : Rule ι) (hr : PlateCalls Q r) :
    SizedSrc (.plate r) [Atom.var 0] ∧ Passes (.plate r) [Atom.var 0] (fun c => (r [none] [c]).2.2) ∧
      ∀ c, (r [none] [some c]).2.2 = some (some (fun _ => psum (val c))) := by
  refine ⟨?_, ?_, ?_⟩
  · intro i o hi ho
    obtain ⟨s, -, heq⟩ := hr i o (by rw [hi, hb.one_in]; rfl) (by rw [ho, hb.one_out])
    simp only [NOp.rule, heq, List.length_map, hb.one_in, hb.one_out]
    exact ⟨rfl, trivial⟩
  · intro env h0
    obtain ⟨s, hrun, heq⟩ := hr [none] [env 1] (by rw [hb.one_in]; rfl) (by rw [hb.one_out]; rfl)
    simp only [NOp.rule, List.map_cons, List.map_nil, Propagate.read, h0]
    rcases h1 : env 1 with _ | c
    · rw [h1] at heq hrun
      obtain ⟨a, b⟩ := hb.unknown s hrun
      rw [heq, a, b]
    · rw [h1] at heq hrun
      obtain ⟨a, b, -⟩ := hb.known c s hrun
      rw [heq, a, b]
  · intro c
    obtain ⟨s, hrun, heq⟩ := hr [none] [some c] (by rw [hb.one_in]; rfl) (by rw [hb.one_out]; rfl)
    rw [heq, (hb.known c s hrun).2.2]
    rfl

/-- The log-density of the transformed random variable by the change of variables formula: the value is pulled back
through all operations; the log-density there plus the ILDJ. -/
noncomputable def density (params : List F) (d : List F → List F → F) (ps : List Un) (c : F × F) : F :=
  addF (d params [(pulls ps c).1]) (pulls ps c).2

theorem nest_body (params d pss) (P : NProg ι) (h : Nest params d pss P) :
    ∃ hs, Body P hs (fun y j => density params d pss.reverse.flatten (y j)) := by
  induction h with
  | rv ps =>
    refine ⟨srcChain_sized _ _ _ (rv_sized params d), ?_⟩
    have := chain_body (ι := ι) (.rv 0 d) _ ps _ (rv_sized params d) (rv_passes params d) (by simp)
      (fun c j => d params [(c j).1]) (fun c => rfl)
    simpa [density, NOp.reg] using this
  | call pss Q r ps _ hr ih =>
    obtain ⟨hs, hb⟩ := ih
    obtain ⟨h1, h2, h3⟩ := call_src Q hs _ hb r hr
    refine ⟨srcChain_sized _ _ _ h1, ?_⟩
    have := chain_body (ι := ι) (.call r) _ ps _ h1 h2 (by simp) _ h3
    simp only [NOp.reg, Bool.false_eq_true, if_false, addF_zero_right] at this
    have he : ∀ c, density params d (ps :: pss).reverse.flatten c = density params d pss.reverse.flatten (pulls ps c) := by
      intro c; simp [density, pulls_append]
    simp only [he]
    exact this

/-- C58.  Wrapping parts of a transformed random variable in calls (`jit`, `nest`, `call`), to any depth, does not
change `log_prob`: it is the log-density at the inverse image of the sample plus the ILDJ, as without the calls. -/
theorem nested_log_prob_change_of_variables (params d pss) (P : NProg ι) (h : Nest params d pss P) (y : ι → F)
    (res : Option (ι → F)) (hr : LogProb P [] [y] res) :
    res = some (fun j => density params d pss.reverse.flatten (y j, some 0)) := by
  obtain ⟨hs, hb⟩ := nest_body params d pss P h
  obtain ⟨s, hrun, rfl⟩ := hr
  exact (hb.known _ s hrun).2.2

/-- C58.  Two ways of wrapping the same program in calls give the same `log_prob`. -/
theorem nested_log_prob_invariant (params d pss pss') (P P' : NProg ι) (h : Nest params d pss P)
    (h' : Nest params d pss' P') (heq : pss.reverse.flatten = pss'.reverse.flatten) (y : ι → F) (res res' : Option (ι → F))
    (hr : LogProb P [] [y] res) (hr' : LogProb P' [] [y] res') : res = res' := by
  rw [nested_log_prob_change_of_variables params d pss P h y res hr,
    nested_log_prob_change_of_variables params d pss' P' h' y res' hr', heq]

/-- A plate around a transformed random variable, its value transformed further. -/
def PlateChain [Fintype ι] (params : List F) (d : List F → List F → F) (pss : List (List Un)) (ps : List Un) (P : NProg ι) : Prop :=
  ∃ Q r, Nest params d pss Q ∧ PlateCalls Q r ∧ P = srcChain (.plate r) [Atom.var 0] ps

/-- C59.  What `log_prob` of a plate program returns at index `j`: the sum over the axis of the log-densities, plus
the ILDJ of the operations outside of the plate at `j` once more. -/
theorem plate_log_prob_value [Fintype ι] (params d pss ps) (P : NProg ι) (h : PlateChain params d pss ps P) (y : ι → F)
    (res : Option (ι → F)) (hr : LogProb P [] [y] res) :
    res = some (fun j => addF (psum (fun k => density params d (pss.reverse.flatten ++ ps) (y k, some 0)))
      (pulls ps (y j, some 0)).2) := by
  obtain ⟨Q, r, hn, hp, rfl⟩ := h
  obtain ⟨hs, hb⟩ := nest_body params d pss Q hn
  obtain ⟨h1, h2, h3⟩ := plate_src Q hs _ hb r hp
  have hb' := chain_body (ι := ι) (.plate r) _ ps _ h1 h2 (by simp) _ h3
  obtain ⟨s, hrun, rfl⟩ := hr
  have := (hb'.known _ s hrun).2.2
  simp only [NOp.reg, if_true] at this
  rw [this]
  simp [density, pulls_append]

/-- C59.  If the sample is the value of the plate itself, `log_prob` is the same at every index: the sum over the
named axis of the log-densities of the independent samples. -/
theorem plate_log_prob_partial [Fintype ι] (params d pss) (P : NProg ι) (h : PlateChain params d pss [] P) (y : ι → F)
    (res : Option (ι → F)) (hr : LogProb P [] [y] res) :
    res = some (fun _ => psum (fun k => density params d pss.reverse.flatten (y k, some 0))) := by
  rw [plate_log_prob_value params d pss [] P h y res hr]
  simp [pulls, addF_zero_right]

theorem psum_real [Fintype ι] (v : ι → ℝ) : psum (fun k => some (v k)) = some (∑ k, v k) := by
  simp [psum]

/-- C59 fails for operations outside of the plate: `log_prob` of `exp(plate(...))` is not the sum of the log-densities
of the transformed samples.  The ILDJ is added inside, by the random variable, and again for the plate, which is a
member of `log_prob_registry` too. -/
theorem plate_ildj_counted_twice [Fintype ι] (params) (P : NProg ι) (h : PlateChain params (fun _ _ => some 0) [[]] [.exp] P)
    (res : Option (ι → F)) (hr : LogProb P [] [fun _ => some 2] res) (j : ι) :
    ∃ v : ι → F, res = some v ∧ v j ≠ psum (fun _ : ι => density params (fun _ _ => some 0) [.exp] (some (2 : ℝ), some 0)) := by
  refine ⟨_, plate_log_prob_value params _ _ _ P h _ res hr, ?_⟩
  have hg : (pulls [Un.exp] (some (2 : ℝ), some 0)).2 = some (-Real.log 2) := by
    simp only [pulls, List.foldr_cons, List.foldr_nil, Un.ld, Option.bind_some, Un.dlog]
    have hd : HasDerivAt (Un.gr .exp) ((2 : ℝ)⁻¹) 2 := by
      have := Real.hasDerivAt_log (show (2 : ℝ) ≠ 0 by norm_num)
      refine this.congr_of_eventuallyEq ?_
      filter_upwards [lt_mem_nhds (show (0 : ℝ) < 2 by norm_num)] with x hx
      simp [Un.gr, Un.g, npLog, hx]
    rw [if_pos ⟨hd.differentiableAt, by rw [hd.deriv]; norm_num⟩, hd.deriv]
    simp [addF, Real.log_inv, abs_of_pos]
  have hd : density params (fun _ _ => some 0) [Un.exp] (some (2 : ℝ), some 0) = some (-Real.log 2) := by
    simp [density, hg, addF]
  have hfl : ([[]] : List (List Un)).reverse.flatten ++ [Un.exp] = [Un.exp] := rfl
  simp only [hfl, hd, hg, psum_real]
  simp [addF]
  norm_num

end Verif.LogProb.Nested
