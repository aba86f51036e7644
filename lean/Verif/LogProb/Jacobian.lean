import Verif.Inverse.Jacobian

/-! C29 for several random variables: `log_prob` is the joint log-density at the recovered values minus the
log-determinant of the Jacobian of the outputs with respect to the random variables. -/
namespace Verif.LogProb

open Verif.Propagate Verif.Inverse Filter Topology

/-- The deterministic operation of an equation. -/
def LOp.op : LOp → Option Op
  | .det op => some op
  | .rv _ _ => none

/-- The random variable equations of a program: the density, the operands after the key, and the results. -/
def LProg.randoms (P : LProg) : List ((List F → List F → F) × List (Atom F) × List (Atom F)) :=
  P.eqns.filterMap (fun q => match q.1 with
    | .rv nc d => some (d, (q.2.1.drop nc).drop 1, q.2.2)
    | .det _ => none)

/-- The joint log-density of the random variables of an execution: the sum of the log-densities of the
distributions, at their parameters and the values. -/
noncomputable def LProg.logJoint (P : LProg) (val : Nat → ℝ) : F :=
  sumF (P.randoms.map (fun q => q.1 (q.2.1.map (aval val)) (q.2.2.map (aval val))))

/-- A program with as many (scalar) outputs as random variables, in single assignment form: `rvs` are the random
variables in order, `out` the outputs, which are distinct variables the program defines; the inputs are the key and the
arguments.  `reshape` and `convert_element_type` do not occur: they reset the ILDJ (`log_prob_reshape_wrong`). -/
structure LProg.Square (P : LProg) (key : Nat) (args : List Nat) {n : Nat} (rvs out : Fin n → Nat) : Prop where
  invars : P.invars = (key :: args).map Atom.var
  outvars : P.outvars = List.ofFn (fun i => Atom.var (out i))
  randoms : P.randoms.map (·.2.2) = List.ofFn (fun i => [Atom.var (rvs i)])
  out_inj : Function.Injective out
  ssa : SSA (key :: args) (P.eqns.map (·.2))
  defined : ∀ i, out i ∈ key :: args ∨ ∃ q ∈ P.eqns, Atom.var (out i) ∈ q.2.2
  noreset : ∀ q ∈ P.eqns, q.1 ≠ .det (.un .reshape) ∧ q.1 ≠ .det (.un .convert)

theorem sumF_some (l : List F) (M : ℝ) (h : sumF l = some M) : ∃ ls : List ℝ, l = ls.map some ∧ M = ls.sum := by
  induction l generalizing M with
  | nil => simp [sumF] at h; exact ⟨[], rfl, by simp [h]⟩
  | cons a l ih =>
    have h' : addF a (sumF l) = some M := h
    obtain ⟨x, y, rfl, hy, rfl⟩ := addF_some h'
    obtain ⟨ls, rfl, rfl⟩ := ih y hy
    exact ⟨x :: ls, rfl, by simp⟩

theorem addF_comm (a b : F) : addF a b = addF b a := by
  cases a <;> cases b <;> simp [addF, add_comm]

theorem sumF_add {α : Type} (l : List α) (a b : α → F) :
    sumF (l.map fun q => addF (a q) (b q)) = addF (sumF (l.map a)) (sumF (l.map b)) := by
  induction l with
  | nil => simp [sumF, addF]
  | cons q l ih =>
    have h1 : ∀ (x : F) (l : List F), sumF (x :: l) = addF x (sumF l) := fun _ _ => rfl
    rw [List.map_cons, List.map_cons, List.map_cons, h1, h1, h1, ih]
    rw [addF_assoc, addF_assoc, ← addF_assoc (b q), addF_comm (b q), addF_assoc]

theorem rv_mem (P : LProg) (d ps o) (h : (d, ps, o) ∈ P.randoms) :
    ∃ q ∈ P.eqns, ∃ nc, q.1 = .rv nc d ∧ ps = (q.2.1.drop nc).drop 1 ∧ o = q.2.2 := by
  obtain ⟨q, hq, h⟩ := List.mem_filterMap.1 h
  rcases hop : q.1 with op | ⟨nc, d'⟩ <;> rw [hop] at h <;> simp at h
  obtain ⟨rfl, rfl, rfl⟩ := h
  exact ⟨q, hq, nc, hop, by rw [List.drop_drop], rfl⟩

/-- C29 for programs with several random variables, partial.  `P` has `n` random variables and `n` outputs, no nested
calls, and any sharing of variables: parameters of random variables may depend on other random variables, arguments
and intermediate values.  `val x` is the execution in which the random variables have the values `x`, for `x` near
`x₀`.  If `log_prob`, in any order of propagation, returns a number `t` at the outputs for `x₀`, then the outputs
depend on the random variables with an invertible Jacobian, and `t` is the joint log-density of the random variables
at `x₀` minus the log of its absolute determinant: the log-density of the outputs. -/
theorem log_prob_jacobian_partial (P : LProg) (hsz : Sized P.jaxpr) (key : Nat) (args : List Nat) {n : Nat}
    (rvs out : Fin n → Nat) (hP : P.Square key args rvs out)
    (val : (Fin n → ℝ) → Nat → ℝ) (x₀ : Fin n → ℝ) (hval : ∀ x i, val x (rvs i) = x i)
    (hfix : ∀ x, ∀ u ∈ key :: args, val x u = val x₀ u)
    (hex : ∀ᶠ x in 𝓝 x₀, P.Executes (val x))
    (hok : ∀ q ∈ P.eqns, ∀ op, q.1 = .det op → op.ok (q.2.1.map (aval (val x₀))))
    (hsm : ∀ q ∈ P.eqns, ∀ op, q.1 = .det op → op.smooth (q.2.1.map (aval (val x₀)))) (t : ℝ)
    (h : LogProbRun P (args.map (fun a => some (val x₀ a))) (P.outvars.map (aval (val x₀))) (some (some t))) :
    ∃ f' : (Fin n → ℝ) →L[ℝ] (Fin n → ℝ), HasFDerivAt (fun x i => val x (out i)) f' x₀ ∧ f'.det ≠ 0 ∧
      ∃ T, P.logJoint (val x₀) = some T ∧ t = T - Real.log |f'.det| := by
  have hvar : ∀ q ∈ P.eqns, ∀ a ∈ q.2.2, ∀ v, a ≠ .lit v := by
    rintro q hq a ha v rfl
    obtain ⟨e, he⟩ := List.mem_iff_getElem?.1 hq
    obtain ⟨⟨ws, hws, -⟩, -⟩ := hP.ssa e q.2 (by rw [List.getElem?_map, he]; rfl)
    rw [hws] at ha
    simp at ha
  have hex0 : P.Executes (val x₀) := hex.self_of_nhds
  -- the results of the random variable equations
  have hrvq : ∀ q ∈ P.eqns, ∀ nc d, q.1 = .rv nc d → ∃ i, q.2.2 = [Atom.var (rvs i)] := by
    intro q hq nc d hqd
    have h1 : q.2.2 ∈ P.randoms.map (·.2.2) := by
      refine List.mem_map.2 ⟨(d, (q.2.1.drop nc).drop 1, q.2.2), ?_, rfl⟩
      refine List.mem_filterMap.2 ⟨q, hq, ?_⟩
      rw [hqd]
    rw [hP.randoms, List.mem_ofFn] at h1
    obtain ⟨i, hi⟩ := h1
    exact ⟨i, hi.symm⟩
  have hqrv : ∀ i, ∃ q ∈ P.eqns, ∃ nc d, q.1 = .rv nc d ∧ q.2.2 = [Atom.var (rvs i)] := by
    intro i
    have h1 : [Atom.var (rvs i)] ∈ P.randoms.map (·.2.2) := by
      rw [hP.randoms, List.mem_ofFn]; exact ⟨i, rfl⟩
    obtain ⟨⟨d, ps, o⟩, hm, ho⟩ := List.mem_map.1 h1
    obtain ⟨q, hq, nc, h2, -, h4⟩ := rv_mem P d ps o hm
    exact ⟨q, hq, nc, d, h2, by rw [← h4]; exact ho⟩
  have hHV : HasValue P := by
    intro q hq nc d hqd
    obtain ⟨i, hi⟩ := hrvq q hq nc d hqd
    exact ⟨rvs i, by rw [hi]; simp [Atom.node]⟩
  -- the program as a list of equations
  let E : List GEq := P.eqns.map (fun q => (q.1.op, q.2))
  have hop : ∀ q op, LOp.op q = some op → q = .det op := by
    intro q op hq
    cases q with
    | det o => simp only [LOp.op, Option.some.injEq] at hq; rw [hq]
    | rv nc d => simp [LOp.op] at hq
  have hEm : ∀ g ∈ E, ∃ q ∈ P.eqns, g = (q.1.op, q.2) := by
    intro g hg
    obtain ⟨q, hq, rfl⟩ := List.mem_map.1 hg
    exact ⟨q, hq, rfl⟩
  have H : Smooth (key :: args) E val x₀ := by
    refine ⟨?_, ?_, ?_, ?_, ?_, ?_, ?_⟩
    · have : E.map (·.2) = P.eqns.map (·.2) := by simp [E]
      rw [this]; exact hP.ssa
    · intro u hu
      have : (fun x => val x u) = fun _ => val x₀ u := funext fun x => hfix x u hu
      rw [this]; exact differentiableAt_const _
    · intro g hg hn u hu
      obtain ⟨q, hq, rfl⟩ := hEm g hg
      rcases hqop : q.1 with op | ⟨nc, d⟩
      · rw [hqop] at hn; simp [LOp.op] at hn
      · obtain ⟨i, hi⟩ := hrvq q hq nc d hqop
        simp only [hi, List.mem_singleton] at hu
        obtain rfl := Atom.var.inj hu
        simp only [hval]; exact differentiableAt_apply i x₀
    · filter_upwards [hex] with x hx g hg op hgop
      obtain ⟨q, hq, rfl⟩ := hEm g hg
      exact hx q hq op (hop _ _ hgop)
    · intro g hg op hgop
      obtain ⟨q, hq, rfl⟩ := hEm g hg
      exact hok q hq op (hop _ _ hgop)
    · intro g hg op hgop
      obtain ⟨q, hq, rfl⟩ := hEm g hg
      exact hsm q hq op (hop _ _ hgop)
    · intro g hg
      obtain ⟨q, hq, rfl⟩ := hEm g hg
      exact ⟨fun h => (hP.noreset q hq).1 (hop _ _ h), fun h => (hP.noreset q hq).2 (hop _ _ h)⟩
  have hJ : Runs P.jaxpr E := by
    intro e q hq
    rw [lp_eqn] at hq
    rcases he : P.eqns[e]? with _ | g <;> rw [he] at hq <;> simp at hq
    subst hq
    refine ⟨(g.1.op, g.2), by simp only [E, List.getElem?_map, he]; rfl, rfl, rfl, ?_, ?_⟩
    · intro op hgop i o
      have := hop _ _ hgop
      simp only [this, LOp.rule, and_self]
    · intro hn i o
      rcases hqop : g.1 with op | ⟨nc, d⟩
      · rw [hqop] at hn; simp [LOp.op] at hn
      · simp only [LOp.rule, rvRule]
        split <;> exact ⟨rfl, rfl⟩
  obtain ⟨s0, s, h0, hs, hq, hres⟩ := h
  have h0' : Init iOps P.jaxpr [] (none :: (P.invars.drop 1).map (fun a => some (aval (val x₀) a, some 0)))
      (P.outvars.map (fun a => some (aval (val x₀) a, some 0))) s0 := by
    have e1 : (P.invars.drop 1).map (fun a => (some (aval (val x₀) a, some 0) : ICell)) =
        (args.map (fun a => some (val x₀ a))).map (fun a => some (a, some 0)) := by
      rw [hP.invars]; simp [aval]
    have e2 : P.outvars.map (fun a => (some (aval (val x₀) a, some 0) : ICell)) =
        (P.outvars.map (aval (val x₀))).map (fun y => some (y, some 0)) := by
      rw [List.map_map]; rfl
    rw [e1, e2]; exact h0
  have htrue : ∀ t, Steps iOps P.jaxpr s0 t → ∀ u, Tells (some (val x₀ u)) (t.env u) :=
    fun t ht u => lp_true P (val x₀) hex0 hok hvar s0 t h0' ht u
  -- the initial state
  have henv0 : s0.env = (writeAll iOps (writeAll iOps (fun _ => none) P.jaxpr.invars
      (none :: (args.map (fun a => some (val x₀ a))).map (fun a => some (a, some 0)))).1 ((List.ofFn out).map Atom.var)
      ((List.ofFn fun i => ((some (val x₀ (out i)), some 0) : F × F)).map some)).1 := by
    rw [h0.1, init_env _ rfl]
    have h2 : P.jaxpr.outvars = (List.ofFn out).map Atom.var := by
      show P.outvars = _
      rw [hP.outvars, List.map_ofFn]; rfl
    have h3 : (P.outvars.map (aval (val x₀))).map (fun y => (some (y, some 0) : ICell)) =
        (List.ofFn fun i => ((some (val x₀ (out i)), some 0) : F × F)).map some := by
      rw [hP.outvars, List.map_ofFn, List.map_ofFn, List.map_ofFn]; rfl
    rw [h2, h3]
  have hk0 : ∀ i, ∃ v, s0.env (out i) = some (v, some 0) := by
    intro i
    refine ⟨some (val x₀ (out i)), ?_⟩
    rw [henv0]
    exact writeAll_vars_get _ _ _ (ofFn_nodup hP.out_inj) i.1 _ _ (by simp) (by simp)
  have ha0 : ∀ u, s0.env u ≠ none → (∀ i, out i ≠ u) → u ∈ key :: args := by
    intro u hu hi
    rw [henv0, writeAll_frame] at hu
    · by_contra hno
      apply hu
      rw [writeAll_frame]
      show some u ∉ P.invars.map Atom.node
      rw [hP.invars]
      simp only [List.map_map, List.mem_map, Function.comp, Atom.node, Option.some.injEq, exists_eq_right]
      exact hno
    · intro hm
      simp only [List.map_map, List.mem_map, Function.comp, Atom.node, Option.some.injEq, exists_eq_right] at hm
      obtain ⟨i, hi'⟩ := (List.mem_ofFn' _ _).1 hm
      exact hi i hi'
  have hD0 : ∀ u, u ∈ key :: args → grad (fun x => val x u) x₀ = 0 := by
    intro u hu
    have : (fun x => val x u) = fun _ => val x₀ u := funext fun x => hfix x u hu
    rw [this]; exact grad_const _ _
  have harg : ∀ u, u ∈ key :: args → ∀ e, u ∉ (H.layout P.jaxpr hJ).dfn e := by
    intro u hu e he
    obtain ⟨h1, -⟩ := detOuts_sub E e _ he
    have h2 := H.posOf_out e _ h1
    have h3 := H.posOf_inp u hu
    omega
  -- the random variables are sources
  have hrvE : ∀ i, ∃ e, (∃ g : GEq, E[e]? = some g ∧ g.1 = none) ∧ rvs i ∈ outsOf E e := by
    intro i
    obtain ⟨q, hq, nc, d, h1, h2⟩ := hqrv i
    obtain ⟨e, he⟩ := List.mem_iff_getElem?.1 hq
    have hE : E[e]? = some (q.1.op, q.2) := by simp only [E, List.getElem?_map, he]; rfl
    exact ⟨e, ⟨_, hE, by rw [h1]; rfl⟩, (H.outs_iff e _).2 ⟨_, hE, by rw [h2]; simp⟩⟩
  have hsd : ∀ i e, rvs i ∉ (H.layout P.jaxpr hJ).dfn e := by
    intro i e he
    obtain ⟨h1, g, hg, hg'⟩ := detOuts_sub E e _ he
    obtain ⟨e', ⟨g', hg2, hg2'⟩, h2⟩ := hrvE i
    have h3 := H.posOf_out e _ h1
    have h4 := H.posOf_out e' _ h2
    obtain rfl : e = e' := by omega
    rw [hg] at hg2
    obtain rfl := Option.some.inj hg2
    exact hg' hg2'
  have hsa : ∀ i, ¬ (rvs i ∈ key :: args) := by
    intro i hi
    obtain ⟨e', -, h2⟩ := hrvE i
    have h3 := H.posOf_out e' _ h2
    have h4 := H.posOf_inp _ hi
    omega
  have hinj : Function.Injective rvs := by
    intro i j hij
    have h1 := hval (Pi.single i 1) i
    have h2 := hval (Pi.single i 1) j
    rw [hij] at h1
    rw [h1] at h2
    by_contra hne
    rw [Pi.single_eq_same, Pi.single_eq_of_ne (Ne.symm hne)] at h2
    exact one_ne_zero h2
  have hgrad : ∀ i, grad (fun x => val x (rvs i)) x₀ = Pi.single i 1 := by
    intro i
    funext j
    simp only [hval, grad]
    have : fderiv ℝ (fun x : Fin n → ℝ => x i) x₀ = ContinuousLinearMap.proj i :=
      (ContinuousLinearMap.proj (R := ℝ) (φ := fun _ : Fin n => ℝ) i).fderiv
    rw [this]
    simp [Pi.single_apply, eq_comm]
  -- the result
  have hknown : ∀ i, s.env (rvs i) ≠ none := by
    intro i
    obtain ⟨q, hqm, nc, d, h1, h2⟩ := hqrv i
    refine (log_prob_returns_iff P hsz hHV _ _ s0 s h0 hs hq).1 ⟨some t, hres.symm⟩ q hqm nc d h1 (rvs i) ?_
    rw [List.map_append, List.mem_append, h2]
    exact .inr (by simp [Atom.node])
  have hsum := log_prob_sum P hsz (val x₀) hex0 hok hvar (some t) s0 s h0' hs hres.symm
  have hsum' : some t = addF (P.logJoint (val x₀)) (sumF (List.ofFn fun i => ildjSum [s.env (rvs i)])) := by
    rw [hsum]
    have e1 : (List.ofFn fun i => ildjSum [s.env (rvs i)]) =
        P.randoms.map (fun q => ildjSum (q.2.2.map (Propagate.read iOps s.env))) := by
      have : P.randoms.map (fun q => ildjSum (q.2.2.map (Propagate.read iOps s.env))) =
          (P.randoms.map (·.2.2)).map (fun o => ildjSum (o.map (Propagate.read iOps s.env))) := by
        rw [List.map_map]; rfl
      rw [this, hP.randoms, List.map_ofFn]; rfl
    rw [e1, LProg.logJoint, ← sumF_add, LProg.randoms, List.map_filterMap]
    congr 1
    apply List.filterMap_congr
    rintro ⟨op, ins, outs⟩ -
    cases op <;> rfl
  obtain ⟨T, M, hT, hM, rfl⟩ := addF_some hsum'.symm
  obtain ⟨ls, hls, rfl⟩ := sumF_some _ _ hM
  have hlen : ls.length = n := by
    have := congrArg List.length hls
    simpa using this.symm
  have hend : ∀ i : Fin n, ∃ v, s.env (rvs i) = some (v, some (ls[i.1]'(by omega))) := by
    intro i
    have h1 : (List.ofFn fun i => ildjSum [s.env (rvs i)])[i.1]? = (ls.map some)[i.1]? := by rw [hls]
    rw [List.getElem?_map, List.getElem?_eq_getElem (by omega : i.1 < ls.length)] at h1
    simp only [List.getElem?_ofFn, i.2, dif_pos, Option.map_some, Option.some.injEq] at h1
    rcases hc : s.env (rvs i) with _ | ⟨v, l⟩
    · exact absurd hc (hknown i)
    · refine ⟨v, ?_⟩
      rw [hc] at h1
      simp only [ildjSum, List.foldl_cons, List.foldl_nil, addF_zero_left] at h1
      rw [h1]
  choose vs hvs using hend
  have hmain := slots_run (H.layout P.jaxpr hJ) (fun u => u ∈ key :: args) harg s0 s out hP.out_inj hk0 ha0
    hD0 h0.2.1.1 hs (fun t ht e q hq => H.effect P.jaxpr hJ t.env (htrue t ht) e q hq)
    rvs hinj hsd hsa hgrad _ _ hvs
  have hdiff : ∀ i, DifferentiableAt ℝ (fun x => val x (out i)) x₀ := by
    intro i
    rcases hP.defined i with hj | ⟨q, hq, hm⟩
    · exact H.base _ hj
    · obtain ⟨e, he⟩ := List.mem_iff_getElem?.1 hq
      exact H.diff e (q.1.op, q.2) (by simp only [E, List.getElem?_map, he]; rfl) (out i) hm
  obtain ⟨hf1, hf2⟩ := jacobian_det (fun x i => val x (out i)) x₀ hdiff
  refine ⟨_, hf1, ?_, T, hT, ?_⟩
  · rw [hf2]
    intro h0
    rw [h0, abs_zero] at hmain
    exact (Real.exp_pos _).ne' hmain.symm
  · rw [hf2, hmain, Real.log_exp, sub_neg_eq_add]
    have : ls = List.ofFn (fun i : Fin n => ls[i.1]'(by omega)) := by
      apply List.ext_getElem
      · simp [hlen]
      · intro j h1 h2; simp
    conv_lhs => rw [this]
    rw [List.sum_ofFn]

/-! ### An instance -/

/-- `z₁ ~ d₁(); z₂ ~ d₂(z₁); return exp z₁, z₁ * z₂`: the second random variable depends on the first, and so do both
outputs. -/
noncomputable def rvPair (d₁ d₂ : List F → List F → F) : LProg := ⟨[.var 0], [.var 3, .var 4],
  [(.rv 0 d₁, [.var 0], [.var 1]), (.rv 0 d₂, [.var 0, .var 1], [.var 2]),
   (.det (.un .exp), [.var 1], [.var 3]), (.det (.bin .mul), [.var 1, .var 2], [.var 4])]⟩

/-- Its executions. -/
noncomputable def rvPairVal (x : Fin 2 → ℝ) (u : Nat) : ℝ :=
  if u = 0 then 7 else if u = 1 then x 0 else if u = 2 then x 1 else if u = 3 then Real.exp (x 0) else x 0 * x 1

/-- The program meets the hypotheses of `log_prob_jacobian_partial` at `z₁ = 1`, `z₂ = 2`, and there is a run that
returns a number: the two log-densities minus `log |det [[e, 0], [2, 1]]|`. -/
theorem rvPair_instance (d₁ d₂ : List F → List F → F) (a b : ℝ) (ha : d₁ [] [some 1] = some a)
    (hb : d₂ [some 1] [some 2] = some b) :
    Sized (rvPair d₁ d₂).jaxpr ∧ (rvPair d₁ d₂).Square 0 [] ![1, 2] ![3, 4] ∧ (∀ x i, rvPairVal x (![1, 2] i) = x i) ∧
    (∀ x, (rvPair d₁ d₂).Executes (rvPairVal x)) ∧
    (∀ q ∈ (rvPair d₁ d₂).eqns, ∀ op, q.1 = .det op → op.ok (q.2.1.map (aval (rvPairVal ![1, 2])))) ∧
    (∀ q ∈ (rvPair d₁ d₂).eqns, ∀ op, q.1 = .det op → op.smooth (q.2.1.map (aval (rvPairVal ![1, 2])))) ∧
    LogProbRun (rvPair d₁ d₂) [] ((rvPair d₁ d₂).outvars.map (aval (rvPairVal ![1, 2]))) (some (some (a + b - 1))) := by
  refine ⟨?_, ⟨rfl, rfl, rfl, by decide, ?_, ?_, ?_⟩, ?_, ?_, ?_, ?_, ?_⟩
  · intro q hq i o hi ho
    simp only [LProg.jaxpr, rvPair, List.map_cons, List.map_nil, List.mem_cons, List.not_mem_nil, or_false] at hq
    rcases hq with rfl | rfl | rfl | rfl
    · simp only [LOp.rule, rvRule]; split <;> exact ⟨hi, ho⟩
    · simp only [LOp.rule, rvRule]; split <;> exact ⟨hi, ho⟩
    · match i, o, hi, ho with
      | [i1], [o1], _, _ => cases i1 <;> cases o1 <;> simp [LOp.rule, Op.rule, unRule]
    · match i, o, hi, ho with
      | [i1, i2], [o1], _, _ => cases i1 <;> cases i2 <;> cases o1 <;> simp [LOp.rule, Op.rule, binRule]
  · intro e g he
    simp only [rvPair, List.map_cons, List.map_nil] at he ⊢
    obtain _ | _ | _ | _ | e := e
    · simp only [List.getElem?_cons_zero, Option.some.injEq] at he
      subst he
      refine ⟨⟨[1], rfl, by simp, ?_⟩, ?_⟩
      · intro w hw; simp at hw; subst hw; exact ⟨by decide, fun e' g' h => absurd h (by omega)⟩
      · intro a ha; simp at ha; subst ha; exact .inr ⟨0, rfl, .inl (by decide)⟩
    · simp only [Nat.zero_add, List.getElem?_cons_succ, List.getElem?_cons_zero, Option.some.injEq] at he
      subst he
      refine ⟨⟨[2], rfl, by simp, ?_⟩, ?_⟩
      · intro w hw; simp at hw; subst hw
        refine ⟨by decide, fun e' g' h hg => ?_⟩
        obtain rfl : e' = 0 := by omega
        simp at hg; subst hg; simp
      · intro a ha; simp at ha
        rcases ha with rfl | rfl
        · exact .inr ⟨0, rfl, .inl (by decide)⟩
        · exact .inr ⟨1, rfl, .inr ⟨0, _, by omega, rfl, by simp⟩⟩
    · simp only [Nat.zero_add, List.getElem?_cons_succ, List.getElem?_cons_zero, Option.some.injEq] at he
      subst he
      refine ⟨⟨[3], rfl, by simp, ?_⟩, ?_⟩
      · intro w hw; simp at hw; subst hw
        refine ⟨by decide, fun e' g' h hg => ?_⟩
        obtain rfl | rfl : e' = 0 ∨ e' = 1 := by omega
        all_goals simp at hg; subst hg; simp
      · intro a ha; simp at ha; subst ha
        exact .inr ⟨1, rfl, .inr ⟨0, _, by omega, rfl, by simp⟩⟩
    · simp only [Nat.zero_add, List.getElem?_cons_succ, List.getElem?_cons_zero, Option.some.injEq] at he
      subst he
      refine ⟨⟨[4], rfl, by simp, ?_⟩, ?_⟩
      · intro w hw; simp at hw; subst hw
        refine ⟨by decide, fun e' g' h hg => ?_⟩
        obtain rfl | rfl | rfl : e' = 0 ∨ e' = 1 ∨ e' = 2 := by omega
        all_goals simp at hg; subst hg; simp
      · intro a ha; simp at ha
        rcases ha with rfl | rfl
        · exact .inr ⟨1, rfl, .inr ⟨0, _, by omega, rfl, by simp⟩⟩
        · exact .inr ⟨2, rfl, .inr ⟨1, _, by omega, rfl, by simp⟩⟩
    · simp at he
  · intro i
    refine .inr ?_
    match i with
    | 0 => exact ⟨_, List.mem_of_getElem? (i := 2) rfl, by simp⟩
    | 1 => exact ⟨_, List.mem_of_getElem? (i := 3) rfl, by simp⟩
  · intro q hq
    simp only [rvPair, List.mem_cons, List.not_mem_nil, or_false] at hq
    rcases hq with rfl | rfl | rfl | rfl <;> simp
  · intro x i
    match i with
    | 0 => simp [rvPairVal]
    | 1 => simp [rvPairVal]
  · intro x q hq op hop
    simp only [rvPair, List.mem_cons, List.not_mem_nil, or_false] at hq
    rcases hq with rfl | rfl | rfl | rfl <;> simp at hop <;> subst hop <;>
      simp [Op.eval, aval, rvPairVal, Un.f, Bin.f, bind2]
  · intro q hq op hop
    simp only [rvPair, List.mem_cons, List.not_mem_nil, or_false] at hq
    rcases hq with rfl | rfl | rfl | rfl <;> simp at hop <;> subst hop <;>
      simp [Op.ok, Un.ok, Bin.ok, aval, rvPairVal]
  · intro q hq op hop
    simp only [rvPair, List.mem_cons, List.not_mem_nil, or_false] at hq
    rcases hq with rfl | rfl | rfl | rfl <;> simp at hop <;> subst hop <;>
      simp [Op.smooth, aval, rvPairVal]
  · -- the run: the equation of exp, that of the product, then the random variables
    let J := (rvPair d₁ d₂).jaxpr
    let E1 : Env ICell := fun u => if u = 3 then some (some (Real.exp 1), some 0) else if u = 4 then some (some 2, some 0) else none
    let c0 : F × F := (some 1, some (-1))
    let c1 : F × F := (some 2, some 0)
    let E2 := Function.update E1 1 (some c0)
    let E3 := Function.update E2 2 (some c1)
    let q0 : Eqn ICell F (Option F) := ⟨[.var 0], [.var 1], (LOp.rv 0 d₁).rule⟩
    let q1 : Eqn ICell F (Option F) := ⟨[.var 0, .var 1], [.var 2], (LOp.rv 0 d₂).rule⟩
    let q2 : Eqn ICell F (Option F) := ⟨[.var 1], [.var 3], (LOp.det (.un .exp)).rule⟩
    let q3 : Eqn ICell F (Option F) := ⟨[.var 1, .var 2], [.var 4], (LOp.det (.bin .mul)).rule⟩
    have hexp : HasDerivAt Un.exp.gr (Real.exp 1)⁻¹ (Real.exp 1) := by
      refine (Real.hasDerivAt_log (Real.exp_pos 1).ne').congr_of_eventuallyEq ?_
      filter_upwards [lt_mem_nhds (Real.exp_pos 1)] with w hw
      simp [Un.gr, Un.g, npLog, hw]
    have hdl : Un.exp.dlog (Real.exp 1) = some (-1) := by
      simp only [Un.dlog]
      rw [if_pos ⟨hexp.differentiableAt, by rw [hexp.deriv]; positivity⟩, hexp.deriv, abs_of_pos (by positivity),
        Real.log_inv, Real.log_exp]
    have hg : Un.exp.g (Real.exp 1) = some 1 := by simp [Un.g, npLog, Real.exp_pos]
    have hout : (rvPair d₁ d₂).outvars.map (aval (rvPairVal ![1, 2])) = [some (Real.exp 1), some 2] := by
      simp [rvPair, aval, rvPairVal]
    have hinit : initEnv iOps J [] [none] [some (some (Real.exp 1), some 0), some (some 2, some 0)] = E1 := by
      rw [init_env _ rfl]
      funext u
      simp only [J, LProg.jaxpr, rvPair, writeAll, write, iOps, E1]
      by_cases h4 : u = 4
      · subst h4; simp
      · by_cases h3 : u = 3
        · subst h3; simp
        · simp [h3, h4]
    have hx2 : (exec iOps E1 q2).1 = E2 ∧ progressed iOps (q2.ins ++ q2.outs)
        (q2.ins.map (Propagate.read iOps E1) ++ q2.outs.map (Propagate.read iOps E1))
        ((exec iOps E1 q2).2.1 ++ (exec iOps E1 q2).2.2.1) = [1] ∧ (exec iOps E1 q2).2.2.2 = none := by
      refine ⟨?_, ?_, ?_⟩
      · funext u
        by_cases h3 : u = 3
        · subst h3; simp [exec, q2, Propagate.read, E1, E2, LOp.rule, Op.rule, unRule, writeAll, write, iOps, c0]
        · by_cases h1 : u = 1
          · subst h1; simp [exec, q2, Propagate.read, E1, E2, LOp.rule, Op.rule, unRule, writeAll, write, iOps, c0, hg, Un.ld, addF, hdl]
          · simp [exec, q2, Propagate.read, E1, E2, LOp.rule, Op.rule, unRule, writeAll, write, iOps, c0, h3, h1, Function.update_of_ne]
      · simp [exec, q2, Propagate.read, E1, LOp.rule, Op.rule, unRule, writeAll, write, iOps, progressed, Atom.node]
      · rfl
    have hx3 : (exec iOps E2 q3).1 = E3 ∧ progressed iOps (q3.ins ++ q3.outs)
        (q3.ins.map (Propagate.read iOps E2) ++ q3.outs.map (Propagate.read iOps E2))
        ((exec iOps E2 q3).2.1 ++ (exec iOps E2 q3).2.2.1) = [2] ∧ (exec iOps E2 q3).2.2.2 = none := by
      refine ⟨?_, ?_, ?_⟩
      · funext u
        by_cases h4 : u = 4
        · subst h4; simp [exec, q3, Propagate.read, E1, E2, E3, LOp.rule, Op.rule, binRule, writeAll, write, iOps, c0, c1]
        · by_cases h2 : u = 2
          · subst h2; simp [exec, q3, Propagate.read, E1, E2, E3, LOp.rule, Op.rule, binRule, writeAll, write, iOps, c0, c1, bind2, Bin.gl, Bin.ll, npLog, addF]
          · by_cases h1 : u = 1
            · subst h1; simp [exec, q3, Propagate.read, E1, E2, E3, LOp.rule, Op.rule, binRule, writeAll, write, iOps, c0, c1]
            · simp [exec, q3, Propagate.read, E1, E2, E3, LOp.rule, Op.rule, binRule, writeAll, write, iOps, c0, c1, h4, h2, h1, Function.update_of_ne]
      · simp [exec, q3, Propagate.read, E2, E1, LOp.rule, Op.rule, binRule, writeAll, write, iOps, progressed, Atom.node, c0]
      · rfl
    have hx0 : (exec iOps E3 q0).1 = E3 ∧ progressed iOps (q0.ins ++ q0.outs)
        (q0.ins.map (Propagate.read iOps E3) ++ q0.outs.map (Propagate.read iOps E3))
        ((exec iOps E3 q0).2.1 ++ (exec iOps E3 q0).2.2.1) = [] ∧ (exec iOps E3 q0).2.2.2 = some (some a) := by
      have hr : q0.rule [none] [some c0] = ([none], [some c0], some (some a)) := by
        simp [q0, LOp.rule, rvRule, c0, ha]
      refine ⟨?_, ?_, ?_⟩
      · funext u
        by_cases h1 : u = 1
        · subst h1; simp [exec, q0, Propagate.read, E1, E2, E3, LOp.rule, rvRule, writeAll, write, iOps, c0]
        · by_cases h0 : u = 0
          · subst h0; simp [exec, q0, Propagate.read, E1, E2, E3, LOp.rule, rvRule, writeAll, write, iOps, c0]
          · simp [exec, q0, Propagate.read, E1, E2, E3, LOp.rule, rvRule, writeAll, write, iOps, c0, h1, h0, Function.update_of_ne]
      · simp [exec, q0, Propagate.read, E3, E2, E1, LOp.rule, rvRule, writeAll, write, iOps, progressed, Atom.node, c0]
      · simpa [exec, q0, Propagate.read, E3, E2, E1] using congrArg (·.2.2) hr
    have hx1 : (exec iOps E3 q1).1 = E3 ∧ progressed iOps (q1.ins ++ q1.outs)
        (q1.ins.map (Propagate.read iOps E3) ++ q1.outs.map (Propagate.read iOps E3))
        ((exec iOps E3 q1).2.1 ++ (exec iOps E3 q1).2.2.1) = [] ∧ (exec iOps E3 q1).2.2.2 = some (some b) := by
      have hr : q1.rule [none, some c0] [some c1] = ([none, some c0], [some c1], some (some b)) := by
        simp [q1, LOp.rule, rvRule, c0, c1, hb]
      refine ⟨?_, ?_, ?_⟩
      · funext u
        by_cases h2 : u = 2
        · subst h2; simp [exec, q1, Propagate.read, E1, E2, E3, LOp.rule, rvRule, writeAll, write, iOps, c0, c1]
        · by_cases h1 : u = 1
          · subst h1; simp [exec, q1, Propagate.read, E1, E2, E3, LOp.rule, rvRule, writeAll, write, iOps, c0, c1]
          · by_cases h0 : u = 0
            · subst h0; simp [exec, q1, Propagate.read, E1, E2, E3, LOp.rule, rvRule, writeAll, write, iOps, c0, c1]
            · simp [exec, q1, Propagate.read, E1, E2, E3, LOp.rule, rvRule, writeAll, write, iOps, c0, c1, h2, h1, h0, Function.update_of_ne]
      · simp [exec, q1, Propagate.read, E3, E2, E1, LOp.rule, rvRule, writeAll, write, iOps, progressed, Atom.node, c0, c1]
      · simpa [exec, q1, Propagate.read, E3, E2, E1] using congrArg (·.2.2) hr
    have hn1 : ∀ e, Nbr J 1 e ↔ e = 0 ∨ e = 1 ∨ e = 2 ∨ e = 3 := by
      intro e
      obtain _ | _ | _ | _ | e := e <;> simp [J, Nbr, LProg.jaxpr, rvPair, Atom.node]
    have hn2 : ∀ e, Nbr J 2 e ↔ e = 1 ∨ e = 3 := by
      intro e
      obtain _ | _ | _ | _ | e := e <;> simp [J, Nbr, LProg.jaxpr, rvPair, Atom.node]
    let f1 : Nat → Option (Option F) := fun i => if i = 2 then some none else none
    let f2 : Nat → Option (Option F) := fun i => if i = 3 then some none else f1 i
    let f3 : Nat → Option (Option F) := fun i => if i = 0 then some (some (some a)) else f2 i
    let f4 : Nat → Option (Option F) := fun i => if i = 1 then some (some (some b)) else f3 i
    let s0 : St ICell (Option F) := ⟨E1, [2, 3, 0, 1], fun _ => none⟩
    have st1 : Step iOps J s0 ⟨E2, [3, 0, 1], f1⟩ := by
      have := Step.mk (O := iOps) (J := J) s0 2 [3, 0, 1] q2 [3, 0, 1] rfl rfl (by
        rw [hx2.2.1]
        refine .cons 1 [] [3, 0, 1] [] [3, 0, 1] List.nodup_nil ?_ (.nil _)
        intro e
        rw [hn1]; simp; omega)
      rw [show (exec iOps s0.env q2).1 = E2 from hx2.1, show (exec iOps s0.env q2).2.2.2 = none from hx2.2.2] at this
      exact this
    have st2 : Step iOps J ⟨E2, [3, 0, 1], f1⟩ ⟨E3, [0, 1], f2⟩ := by
      have := Step.mk (O := iOps) (J := J) ⟨E2, [3, 0, 1], f1⟩ 3 [0, 1] q3 [0, 1] rfl rfl (by
        rw [hx3.2.1]
        refine .cons 2 [] [0, 1] [] [0, 1] List.nodup_nil ?_ (.nil _)
        intro e
        rw [hn2]; simp; omega)
      simp only [hx3.1, hx3.2.2] at this
      exact this
    have st3 : Step iOps J ⟨E3, [0, 1], f2⟩ ⟨E3, [1], f3⟩ := by
      have := Step.mk (O := iOps) (J := J) ⟨E3, [0, 1], f2⟩ 0 [1] q0 [1] rfl rfl (by rw [hx0.2.1]; exact .nil _)
      simp only [hx0.1, hx0.2.2] at this
      exact this
    have st4 : Step iOps J ⟨E3, [1], f3⟩ ⟨E3, [], f4⟩ := by
      have := Step.mk (O := iOps) (J := J) ⟨E3, [1], f3⟩ 1 [] q1 [] rfl rfl (by rw [hx1.2.1]; exact .nil _)
      simp only [hx1.1, hx1.2.2] at this
      exact this
    refine ⟨s0, ⟨E3, [], f4⟩, ⟨?_, ⟨by decide, ?_⟩, fun _ => rfl⟩,
      .tail _ _ _ (.tail _ _ _ (.tail _ _ _ (.tail _ _ _ (.refl s0) st1) st2) st3) st4, rfl, ?_⟩
    · rw [hout]
      exact hinit.symm
    · intro e
      obtain _ | _ | _ | _ | e := e
      · simp only [s0, List.mem_cons, true_or, or_true, true_iff]
        exact ⟨0, by simp [LProg.jaxpr, rvPair, Atom.node], by simp [Nbr, LProg.jaxpr, rvPair, Atom.node]⟩
      · simp only [s0, List.mem_cons, Nat.zero_add, true_or, or_true, true_iff]
        exact ⟨0, by simp [LProg.jaxpr, rvPair, Atom.node], by simp [Nbr, LProg.jaxpr, rvPair, Atom.node]⟩
      · simp only [s0, List.mem_cons, Nat.zero_add, Nat.reduceAdd, true_or, or_true, true_iff]
        exact ⟨3, by simp [LProg.jaxpr, rvPair, Atom.node], by simp [Nbr, LProg.jaxpr, rvPair, Atom.node]⟩
      · simp only [s0, List.mem_cons, Nat.zero_add, Nat.reduceAdd, true_or, or_true, true_iff]
        exact ⟨4, by simp [LProg.jaxpr, rvPair, Atom.node], by simp [Nbr, LProg.jaxpr, rvPair, Atom.node]⟩
      · simp [s0, Nbr, LProg.jaxpr, rvPair]
    · simp [lpFinish, rvPair, lpReduce, f4, f3, f2, f1, ildjSum, Propagate.read, E3, E2, c0, c1, addF]
      ring

end Verif.LogProb
