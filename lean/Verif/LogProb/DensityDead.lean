import Verif.LogProb.DensityProps

/-! C86: programs with statements that the outputs do not depend on. -/
namespace Verif.LogProb.Joint

open Verif.Propagate Verif.Inverse Verif.Plate MeasureTheory Filter
open scoped ENNReal Topology

variable {Ω : Type}

/-- What a statement with one equation defines and uses, when it is a plain draw or an operation. -/
def liveBody : List Stmt → List ℕ → List Stmt × List ℕ
  | [], need => ([], need)
  | .det op ins outs :: rest, need =>
    if outs.any fun x => (liveBody rest need).2.contains x then
      (.det op ins outs :: (liveBody rest need).1, ins.filterMap Atom.node ++ (liveBody rest need).2)
    else liveBody rest need
  | .draw D :: rest, need =>
    if (liveBody rest need).2.contains D.value then
      (.draw D :: (liveBody rest need).1, D.operands.filterMap Atom.node ++ (liveBody rest need).2)
    else liveBody rest need
  | .tag n a :: rest, need => (.tag n a :: (liveBody rest need).1, (liveBody rest need).2)

/-- Specification: the program without the operations and random variables that the outputs do not depend on. -/
def Source.live (S : Source) : Source :=
  { S with body := (liveBody S.body (S.outs.filterMap Atom.node)).1 }

theorem outs_node (outs : List ℕ) : (outs.map Atom.var : List (Atom F)).filterMap Atom.node = outs := by
  induction outs with
  | nil => rfl
  | cons o outs ih => rw [List.map_cons, List.filterMap_cons, ih]; rfl

theorem prune_live (body : List Stmt) (hp : ∀ D ∈ draws body, D.links = []) (need : List ℕ) :
    prune (body.flatMap Stmt.eqns) need = ((liveBody body need).1.flatMap Stmt.eqns, (liveBody body need).2) := by
  induction body with
  | nil => rfl
  | cons st rest ih =>
    cases st with
    | det op ins outs =>
      have ih := ih hp
      simp only [List.flatMap_cons, Stmt.eqns, List.singleton_append, prune, liveBody, ih, outs_node]
      split <;> simp [Stmt.eqns]
    | draw D =>
      have ih := ih fun E hE => hp E (List.mem_cons_of_mem _ hE)
      have hD := hp D List.mem_cons_self
      simp only [List.flatMap_cons, Stmt.eqns, hD, linkEqns, List.singleton_append, prune, liveBody, ih]
      simp only [List.filterMap_cons, Atom.node, List.filterMap_nil, List.any_cons, List.any_nil, Bool.or_false]
      split <;> simp [Stmt.eqns, hD, linkEqns]
    | tag n a =>
      have ih := ih hp
      simpa [Stmt.eqns, liveBody] using ih

theorem prune_prune {α : Type} (qs : List (α × List (Atom F) × List (Atom F))) (need : List ℕ) :
    prune (prune qs need).1 need = prune qs need := by
  induction qs with
  | nil => rfl
  | cons q qs ih =>
    by_cases h : (q.2.2.filterMap Atom.node).any fun x => (prune qs need).2.contains x
    · have e : prune (q :: qs) need = (q :: (prune qs need).1, q.2.1.filterMap Atom.node ++ (prune qs need).2) := by
        rw [prune, if_pos h]
      rw [e]
      simp only [prune, ih, h, if_true]
    · have e : prune (q :: qs) need = prune qs need := by rw [prune, if_neg h]
      rw [e, ih]

theorem liveBody_draws (body : List Stmt) (need : List ℕ) : ∀ D ∈ draws (liveBody body need).1, D ∈ draws body := by
  induction body with
  | nil => intro D hD; exact hD
  | cons st rest ih =>
    intro D hD
    cases st with
    | det op ins outs =>
      simp only [liveBody] at hD
      split at hD <;> exact ih D hD
    | draw E =>
      simp only [liveBody] at hD
      split at hD
      · rcases List.mem_cons.1 hD with rfl | h
        · exact List.mem_cons_self
        · exact List.mem_cons_of_mem _ (ih D h)
      · exact List.mem_cons_of_mem _ (ih D hD)
    | tag n a => exact ih D hD

/-- Staging drops the same equations. -/
theorem staged_live (S : Source) (hp : ∀ D ∈ draws S.body, D.links = []) : S.live.staged = S.staged := by
  have h1 := prune_live S.body hp (S.outs.filterMap Atom.node)
  have h2 : S.live.body.flatMap Stmt.eqns = (prune (S.body.flatMap Stmt.eqns) (S.outs.filterMap Atom.node)).1 := by
    rw [h1]; rfl
  have h3 : (prune (S.live.body.flatMap Stmt.eqns) (S.outs.filterMap Atom.node))
      = prune (S.body.flatMap Stmt.eqns) (S.outs.filterMap Atom.node) := by
    rw [h2, prune_prune]
  show LProg.mk _ _ (prune (S.live.body.flatMap Stmt.eqns) (S.outs.filterMap Atom.node)).1 = _
  rw [h3]
  rfl

theorem live_noDead (S : Source) (hp : ∀ D ∈ draws S.body, D.links = []) : S.live.NoDead := by
  have h1 := prune_live S.body hp (S.outs.filterMap Atom.node)
  rw [Source.NoDead, staged_live S hp]
  show (prune (S.body.flatMap Stmt.eqns) (S.outs.filterMap Atom.node)).1 = _
  rw [h1]
  rfl

theorem setAll_agree (outs : List ℕ) (vs : List F) (val val' : ℕ → ℝ) (need : List ℕ)
    (h : ∀ x ∈ need, val x = val' x) : ∀ x ∈ need, setAll val outs vs x = setAll val' outs vs x := by
  induction outs generalizing vs val val' with
  | nil => intro x hx; cases vs <;> exact h x hx
  | cons o outs ih =>
    cases vs with
    | nil => exact h
    | cons v vs =>
      refine ih vs _ _ fun x hx => ?_
      simp only [setR]
      split
      · rfl
      · exact h x hx

/-- Calling the program: what is needed does not depend on the other statements. -/
theorem runSample_live (samp : Draw → List F → (Key → Ω) → ℝ) (keyOf : ℕ → Key) (ω : Key → Ω) (body : List Stmt)
    (hp : ∀ D ∈ draws body, D.links = []) (need : List ℕ) (val val' : ℕ → ℝ)
    (h : ∀ x ∈ (liveBody body need).2, val x = val' x) :
    ∀ x ∈ need, runSample samp keyOf ω body val x = runSample samp keyOf ω (liveBody body need).1 val' x := by
  induction body generalizing val val' with
  | nil => exact h
  | cons st rest ih =>
    cases st with
    | det op ins outs =>
      have ih := ih hp
      by_cases hc : outs.any fun x => (liveBody rest need).2.contains x
      · have e : liveBody (.det op ins outs :: rest) need
            = (.det op ins outs :: (liveBody rest need).1, ins.filterMap Atom.node ++ (liveBody rest need).2) := by
          rw [liveBody, if_pos hc]
        rw [e] at h ⊢
        have e1 : ins.map (aval val) = ins.map (aval val') :=
          aval_map_congr_node fun x hx => h x (List.mem_append_left _ hx)
        rw [runSample, runSample, e1]
        exact ih _ _ (setAll_agree _ _ _ _ _ fun x hx => h x (List.mem_append_right _ hx))
      · have e : liveBody (.det op ins outs :: rest) need = liveBody rest need := by rw [liveBody, if_neg hc]
        rw [e] at h ⊢
        rw [runSample]
        refine ih _ _ fun x hx => ?_
        rw [setAll_ne _ _ _ _ fun ho => hc (List.any_eq_true.2 ⟨x, ho, List.contains_iff_mem.2 hx⟩)]
        exact h x hx
    | draw D =>
      have ih := ih fun E hE => hp E (List.mem_cons_of_mem _ hE)
      have hD := hp D List.mem_cons_self
      by_cases hc : (liveBody rest need).2.contains D.value
      · have e : liveBody (.draw D :: rest) need
            = (.draw D :: (liveBody rest need).1, D.operands.filterMap Atom.node ++ (liveBody rest need).2) := by
          rw [liveBody, if_pos hc]
        rw [e] at h ⊢
        have e1 : D.params val = D.params val' := by
          refine aval_map_congr_node fun x hx => h x (List.mem_append_left _ ?_)
          obtain ⟨a, ha, hax⟩ := List.mem_filterMap.1 hx
          exact List.mem_filterMap.2 ⟨a, List.mem_of_mem_drop (List.mem_of_mem_drop ha), hax⟩
        rw [runSample, runSample, e1, hD]
        refine ih _ _ fun x hx => ?_
        have hv := h x (List.mem_append_right _ hx)
        by_cases hxv : x = D.value
        · simp [setR, lastVar, pushes, hxv]
        · simp [setR, lastVar, hxv, hv]
      · have e : liveBody (.draw D :: rest) need = liveBody rest need := by rw [liveBody, if_neg hc]
        rw [e] at h ⊢
        rw [runSample, hD]
        refine ih _ _ fun x hx => ?_
        rw [setR_other]
        · exact h x hx
        · rintro rfl
          exact hc (List.contains_iff_mem.2 hx)
    | tag n a =>
      exact ih hp val val' h

theorem returned_live (samp : Draw → List F → (Key → Ω) → ℝ) (keyOf : ℕ → Key) (S : Source) (args : List ℝ)
    (hp : ∀ D ∈ draws S.body, D.links = []) {n : ℕ} (out : Fin n → ℕ) (ho : S.outs = List.ofFn fun i => .var (out i))
    (ω : Key → Ω) : S.returned samp keyOf args out ω = S.live.returned samp keyOf args out ω := by
  funext i
  refine runSample_live samp keyOf ω S.body hp _ _ _ (fun _ _ => rfl) (out i) ?_
  rw [ho]
  exact List.mem_filterMap.2 ⟨.var (out i), List.mem_ofFn.2 ⟨i, rfl⟩, rfl⟩

/-- **C86.** `log_prob(f)` is the log density of `f(key, *args)`.  As `log_prob_density_partial`, for programs in which not
every random variable is used: `f` has as many outputs as random variables that the outputs depend on.  The other random
variables are integrated out, as they are not in the staged program. -/
theorem log_prob_density_live_partial [MeasurableSpace Ω] (P : Measure Ω) [IsProbabilityMeasure P] (S : Source)
    (samp : Draw → List F → (Key → Ω) → ℝ) (keyOf : ℕ → Key) (args : List ℝ) (hp : ∀ D ∈ draws S.body, D.links = [])
    (out : Fin (draws S.live.body).length → ℕ) (hwf : S.live.WF) (ho : S.outs = List.ofFn fun i => .var (out i))
    (hsz : Propagate.Sized S.staged.jaxpr) (hsq : S.Square S.live.rvs out)
    (ha : args.length = S.args.length) (hk : S.live.KeysApart keyOf)
    (hs : ∀ st ∈ S.live.body, st.Sampled (oracle P) samp)
    (s : Set (Fin (draws S.live.body).length → ℝ)) (hms : MeasurableSet s)
    (hsure : ∀ᵐ ω ∂oracle P, S.live.drawn samp keyOf args ω ∈ s) (hgood : ∀ x ∈ s, S.live.Good args x)
    (lp : (Fin (draws S.live.body).length → ℝ) → F)
    (hlp : ∀ x ∈ s, lp (S.live.output args out x) ≠ none ∧ LogProbRun S.staged (args.map some)
      (List.ofFn fun i => some (S.live.output args out x i)) (some (lp (S.live.output args out x)))) :
    (∀ᵐ ω ∂oracle P, S.returned samp keyOf args out ω ∈ S.live.output args out '' s) ∧
    (oracle P).map (S.returned samp keyOf args out)
      = ((volume : Measure (Fin (draws S.live.body).length → ℝ)).restrict (S.live.output args out '' s)).withDensity
          fun y => dens (lp y) := by
  have hst := staged_live S hp
  have hflat : S.live.Flat out := ⟨hwf, ho, fun D hD => hp D (liveBody_draws _ _ D hD), live_noDead S hp,
    by rw [hst]; exact hsz,
    ⟨by rw [hst]; exact hsq.randoms, hsq.out_inj, by rw [hst]; exact hsq.ssa, by rw [hst]; exact hsq.defined,
      by rw [hst]; exact hsq.noreset⟩⟩
  have hr : S.returned samp keyOf args out = S.live.returned samp keyOf args out :=
    funext fun ω => returned_live samp keyOf S args hp out ho ω
  rw [hr]
  exact (log_prob_density_partial P samp keyOf args hflat ha hk hs s hms hsure hgood lp
    (by rw [hst]; exact hlp)).2

end Verif.LogProb.Joint
