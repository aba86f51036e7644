import Verif.LogProb.Density
import Verif.LogProb.JointLawProps
import Mathlib.MeasureTheory.Function.Jacobian

/-! C86: `log_prob(f)` is the log density of `f(key, *args)`. -/
namespace Verif.LogProb.Joint

open Verif.Propagate Verif.Inverse Verif.Plate MeasureTheory Filter
open scoped ENNReal Topology

variable {Ω : Type}

/-- The outputs of `f` for given values of its random variables. -/
noncomputable def Source.output (S : Source) (args : List ℝ) {n : ℕ} (out : Fin n → ℕ)
    (x : Fin (draws S.body).length → ℝ) : Fin n → ℝ := fun i => S.val args x (out i)

/-- The outputs of `f(key, *args)`. -/
noncomputable def Source.returned (S : Source) (samp : Draw → List F → (Key → Ω) → ℝ) (keyOf : ℕ → Key) (args : List ℝ)
    {n : ℕ} (out : Fin n → ℕ) (ω : Key → Ω) : Fin n → ℝ :=
  fun i => runSample samp keyOf ω S.body (startVal S args) (out i)

/-- The values of the random variables in `f(key, *args)`. -/
noncomputable def Source.drawn (S : Source) (samp : Draw → List F → (Key → Ω) → ℝ) (keyOf : ℕ → Key) (args : List ℝ)
    (ω : Key → Ω) : Fin (draws S.body).length → ℝ :=
  fun i => runSample samp keyOf ω S.body (startVal S args) (S.rvs i)

/-- Every statement is needed for the outputs, so that staging keeps all equations. -/
def Source.NoDead (S : Source) : Prop := S.staged.eqns = S.body.flatMap Stmt.eqns

/-- The staged program is in single assignment form, its random variables are `rvs` and its outputs `out` are distinct
variables. -/
structure Source.Square (S : Source) {n : ℕ} (rvs out : Fin n → ℕ) : Prop where
  randoms : S.staged.randoms.map (·.2.2) = List.ofFn (fun i => [Atom.var (rvs i)])
  out_inj : Function.Injective out
  ssa : SSA (S.key :: S.args) (S.staged.eqns.map (·.2))
  defined : ∀ i, out i ∈ S.key :: S.args ∨ ∃ q ∈ S.staged.eqns, Atom.var (out i) ∈ q.2.2
  noreset : ∀ q ∈ S.staged.eqns, q.1 ≠ .det (.un .reshape) ∧ q.1 ≠ .det (.un .convert)

/-- The programs of this property: plain draws, no dead code, as many outputs as random variables, staged in single
assignment form. -/
structure Source.Flat (S : Source) (out : Fin (draws S.body).length → ℕ) : Prop where
  wf : S.WF
  returns : S.outs = List.ofFn fun i => .var (out i)
  plain : ∀ D ∈ draws S.body, D.links = []
  alive : S.NoDead
  sized : Propagate.Sized S.staged.jaxpr
  straight : S.Square S.rvs out

section Run

variable {S : Source} {out : Fin (draws S.body).length → ℕ} {args : List ℝ}

/-- The inputs of the staged program are the key and the arguments, its outputs those of `f`. -/
theorem Source.Flat.square (h : S.Flat out) : S.staged.Square S.key S.args S.rvs out :=
  ⟨rfl, h.returns, h.straight.randoms, h.straight.out_inj, h.straight.ssa, h.straight.defined, h.straight.noreset⟩

theorem Source.Flat.nodup (h : S.Flat out) : (S.body.flatMap Stmt.defs).Nodup := by
  have := h.wf.once
  rw [List.cons_append, List.nodup_cons] at this
  exact (List.nodup_append.1 this.2).2.1

theorem Source.Flat.inputs (h : S.Flat out) {u : ℕ} (hu : u ∈ S.key :: S.args) : u ∉ S.body.flatMap Stmt.defs := by
  have := h.wf.once
  rw [List.nodup_append] at this
  exact fun hd => this.2.2 u hu u hd rfl

theorem Source.Flat.val_rvs (h : S.Flat out) (x : Fin (draws S.body).length → ℝ) (i) : S.val args x (S.rvs i) = x i :=
  execute_rvs S.body h.nodup _ x i

theorem startVal_args (xs : List ℕ) (vs : List ℝ) (val : ℕ → ℝ) (hn : xs.Nodup) (hl : vs.length = xs.length) :
    xs.map (setAll val xs (vs.map some)) = vs := by
  have := setAll_map xs (vs.map some) val hn (by simpa using hl) (by simp)
  have h2 : (xs.map (setAll val xs (vs.map some))).map some = vs.map some := by
    rw [List.map_map]; exact this
  exact List.map_injective_iff.2 (Option.some_injective _) h2

theorem Source.Flat.val_args (h : S.Flat out) (ha : args.length = S.args.length) (x : Fin (draws S.body).length → ℝ) :
    S.args.map (S.val args x) = args := by
  have hn : S.args.Nodup := by
    have := h.wf.once
    rw [List.cons_append, List.nodup_cons] at this
    exact (List.nodup_append.1 this.2).1
  refine Eq.trans (List.map_congr_left fun u hu => ?_) (startVal_args S.args args (fun _ => 0) hn ha)
  exact execute_other _ _ _ _ (h.inputs (List.mem_cons_of_mem _ hu))

theorem Source.Flat.executes (h : S.Flat out) (x : Fin (draws S.body).length → ℝ)
    (hx : Numbers S.body (startVal S args) x) : S.staged.Executes (S.val args x) := by
  intro q hq op hop
  rw [show S.staged.eqns = S.body.flatMap Stmt.eqns from h.alive] at hq
  exact execute_executes S.body h.nodup h.wf.order h.wf.sized h.plain _ x hx q hq op hop

theorem Source.Flat.outs (h : S.Flat out) (x : Fin (draws S.body).length → ℝ) :
    S.staged.outvars.map (aval (S.val args x)) = List.ofFn fun i => some (S.output args out x i) := by
  rw [h.square.outvars, List.map_ofFn]
  rfl

theorem Source.Flat.hvar (h : S.Flat out) : ∀ q ∈ S.staged.eqns, ∀ a ∈ q.2.2, ∀ v, a ≠ .lit v := by
  rintro q hq a ha v rfl
  obtain ⟨e, he⟩ := List.mem_iff_getElem?.1 hq
  obtain ⟨⟨ws, hws, -⟩, -⟩ := h.square.ssa e q.2 (by rw [List.getElem?_map, he]; rfl)
  rw [hws] at ha
  simp at ha

theorem Source.Flat.rvq (h : S.Flat out) (i) : ∃ q ∈ S.staged.eqns, ∃ nc d, q.1 = .rv nc d ∧ q.2.2 = [Atom.var (S.rvs i)] := by
  have h1 : [Atom.var (S.rvs i)] ∈ S.staged.randoms.map (·.2.2) := by
    rw [h.square.randoms, List.mem_ofFn]; exact ⟨i, rfl⟩
  obtain ⟨⟨d, ps, o⟩, hm, ho⟩ := List.mem_map.1 h1
  obtain ⟨q, hq, nc, h2, -, h4⟩ := rv_mem S.staged d ps o hm
  exact ⟨q, hq, nc, d, h2, by rw [← h4]; exact ho⟩

theorem Source.Flat.hasValue (h : S.Flat out) : HasValue S.staged := by
  intro q hq nc d hqd
  have h1 : q.2.2 ∈ S.staged.randoms.map (·.2.2) := by
    refine List.mem_map.2 ⟨(d, (q.2.1.drop nc).drop 1, q.2.2), ?_, rfl⟩
    refine List.mem_filterMap.2 ⟨q, hq, ?_⟩
    rw [hqd]
  rw [h.square.randoms, List.mem_ofFn] at h1
  obtain ⟨i, hi⟩ := h1
  exact ⟨S.rvs i, by rw [← hi]; simp [Atom.node]⟩

/-- C86: if `log_prob` returns for the outputs of an execution, no other execution (on the branches of the registered
inverses) has these outputs. -/
theorem log_prob_determines (h : S.Flat out) (ha : args.length = S.args.length) (x z : Fin (draws S.body).length → ℝ)
    (hx : S.Good args x) (hz : S.Good args z) (e : S.output args out x = S.output args out z) (t : F)
    (hr : LogProbRun S.staged (args.map some) (List.ofFn fun i => some (S.output args out x i)) (some t)) : x = z := by
  obtain ⟨s0, s, h0, hst, hq, ht⟩ := hr
  have key : ∀ w : Fin (draws S.body).length → ℝ, S.Good args w → S.output args out x = S.output args out w →
      ∀ u, Tells (some (S.val args w u)) (s.env u) := by
    intro w hw hew
    refine lp_true S.staged (S.val args w) (h.executes w hw.numbers.self_of_nhds) ?_ h.hvar s0 s ?_ hst
    · intro q hq op hop
      rw [show S.staged.eqns = S.body.flatMap Stmt.eqns from h.alive] at hq
      exact hw.ok q hq op hop
    · have e1 : (S.staged.invars.drop 1).map (fun a => (some (aval (S.val args w) a, some 0) : ICell))
          = (args.map some).map fun a => some (a, some 0) := by
        rw [h.square.invars]
        have := h.val_args ha w
        conv_rhs => rw [← this]
        simp [Function.comp_def, aval]
      have e2 : S.staged.outvars.map (fun a => (some (aval (S.val args w) a, some 0) : ICell))
          = (List.ofFn fun i => some (S.output args out x i)).map fun y => some (y, some 0) := by
        rw [hew, ← h.outs w, List.map_map]
        rfl
      rw [e1, e2]
      exact h0
  have hknown := (finish_returns_iff S.staged h.sized h.hasValue _ _ s0 s h0 hst hq).1 ⟨t, ht.symm⟩
  funext i
  obtain ⟨q, hqm, nc, d, hqd, hqo⟩ := h.rvq i
  have hne := hknown q hqm nc d hqd (S.rvs i) (by rw [hqo]; simp [Atom.node])
  obtain ⟨⟨w, l⟩, hw⟩ := Option.ne_none_iff_exists'.1 hne
  have h1 := key x hx rfl (S.rvs i) w l hw
  have h2 := key z hz e (S.rvs i) w l hw
  have := Option.some.inj (h1.symm.trans h2)
  rwa [h.val_rvs, h.val_rvs] at this

/-- The Jacobian of the outputs. -/
theorem log_prob_jacobian (h : S.Flat out) (ha : args.length = S.args.length) (x : Fin (draws S.body).length → ℝ)
    (hx : S.Good args x) (t : ℝ)
    (hr : LogProbRun S.staged (args.map some) (List.ofFn fun i => some (S.output args out x i)) (some (some t))) :
    ∃ f' : (Fin (draws S.body).length → ℝ) →L[ℝ] (Fin (draws S.body).length → ℝ),
      HasFDerivAt (S.output args out) f' x ∧ f'.det ≠ 0 ∧
      ∃ T, S.staged.logJoint (S.val args x) = some T ∧ t = T - Real.log |f'.det| := by
  refine log_prob_jacobian_partial S.staged h.sized S.key S.args S.rvs out h.square (S.val args) x h.val_rvs ?_ ?_ ?_ ?_ t ?_
  · intro z u hu
    simp only [Source.val, execute_other _ _ _ _ (h.inputs hu)]
  · filter_upwards [hx.numbers] with z hz
    exact h.executes z hz
  · intro q hq op hop
    rw [show S.staged.eqns = S.body.flatMap Stmt.eqns from h.alive] at hq
    exact hx.ok q hq op hop
  · intro q hq op hop
    rw [show S.staged.eqns = S.body.flatMap Stmt.eqns from h.alive] at hq
    exact hx.smooth q hq op hop
  · rw [h.outs]
    have e : S.args.map (fun a => some (S.val args x a)) = args.map some := by
      conv_rhs => rw [← h.val_args ha x]
      simp [Function.comp_def]
    rw [e]
    exact hr

end Run

variable [MeasurableSpace Ω]

section Law

variable (P : Measure Ω) [IsProbabilityMeasure P] {S : Source} {out : Fin (draws S.body).length → ℕ}
  (samp : Draw → List F → (Key → Ω) → ℝ) (keyOf : ℕ → Key) (args : List ℝ)

omit [MeasurableSpace Ω] in
theorem drawn_vec (h : S.Flat out) (ω : Key → Ω) : S.drawn samp keyOf args ω
    = vec samp S.body (startVal S args) fun i q => ω (q ++ keyOf ((draws S.body).get i).keyVar) := by
  funext i
  rw [Source.drawn, runSample_vec samp keyOf ω S.body h.plain]
  exact execute_rvs S.body h.nodup _ _ i

omit [MeasurableSpace Ω] in
theorem returned_drawn (h : S.Flat out) (ω : Key → Ω) :
    S.returned samp keyOf args out ω = S.output args out (S.drawn samp keyOf args ω) := by
  funext i
  rw [drawn_vec samp keyOf args h, Source.returned, runSample_vec samp keyOf ω S.body h.plain]
  rfl

theorem drawn_measurable (h : S.Flat out) (hs : ∀ st ∈ S.body, st.Sampled (oracle P) samp) :
    Measurable (S.drawn samp keyOf args) := by
  have hm : Measurable (vec samp S.body (startVal S args)) :=
    vec_measurable (oracle P) samp S.body hs (fun _ => startVal S args) (fun w => w) measurable_const measurable_id
  have e : S.drawn samp keyOf args
      = vec samp S.body (startVal S args) ∘ fun ω i q => ω (q ++ keyOf ((draws S.body).get i).keyVar) :=
    funext fun ω => drawn_vec samp keyOf args h ω
  rw [e]
  exact hm.comp (by fun_prop)

/-- The distribution of the random variables. -/
theorem drawn_law (h : S.Flat out) (hk : S.KeysApart keyOf) (hs : ∀ st ∈ S.body, st.Sampled (oracle P) samp) :
    (oracle P).map (S.drawn samp keyOf args)
      = (volume : Measure (Fin (draws S.body).length → ℝ)).withDensity
          fun x => dens (S.staged.logJoint (S.val args x)) := by
  have hv := vec_law (oracle P) samp S.body hs (startVal S args)
  have hj : (fun x => dens (S.staged.logJoint (S.val args x))) = jd S.body (startVal S args) := by
    funext x
    have e : S.staged = LProg.mk S.staged.invars S.staged.outvars (S.body.flatMap Stmt.eqns) := by
      rw [← show S.staged.eqns = S.body.flatMap Stmt.eqns from h.alive]
    rw [e]
    exact (jd_logJoint S.body h.nodup h.wf.order h.plain _ x _ _).symm
  rw [hj, volume_pi, ← hv]
  obtain ⟨ks, hks, hap⟩ := hk
  have hap' : ∀ i j : Fin (draws S.body).length, i ≠ j →
      ¬ keyOf ((draws S.body).get i).keyVar <:+ keyOf ((draws S.body).get j).keyVar := by
    intro i j hij
    rw [(hks i).keyVar, (hks j).keyVar]
    exact hap i j hij
  have hg := oracle_graft P (fun i => keyOf ((draws S.body).get i).keyVar) hap'
  rw [Measure.infinitePi_eq_pi] at hg
  have hm : Measurable (vec samp S.body (startVal S args)) :=
    vec_measurable (oracle P) samp S.body hs (fun _ => startVal S args) (fun w => w) measurable_const measurable_id
  rw [← hg, Measure.map_map hm (by fun_prop)]
  congr 1
  exact funext fun ω => drawn_vec samp keyOf args h ω

/-- **C86.** `log_prob(f)` is the log density of `f(key, *args)`.  `f` has as many outputs as random variables; parameters may
depend on other random variables and outputs on several of them.  `s` is a set that almost surely contains the values of
the random variables; for values in `s` the operations are differentiable, on the branches of the registered inverses, and
`log_prob(f)`, in any order of propagation, returns a number `lp` for the outputs.  Then the distribution of the outputs
has the density `exp(lp)` on the set of the outputs for values in `s`, which are almost surely all outputs.

Partial: outside of the possible outputs `log_prob` may also return numbers (C81, `joint_log_prob_sqrt_wrong`). -/
theorem log_prob_density_partial (h : S.Flat out) (ha : args.length = S.args.length) (hk : S.KeysApart keyOf)
    (hs : ∀ st ∈ S.body, st.Sampled (oracle P) samp) (s : Set (Fin (draws S.body).length → ℝ)) (hms : MeasurableSet s)
    (hsure : ∀ᵐ ω ∂oracle P, S.drawn samp keyOf args ω ∈ s) (hgood : ∀ x ∈ s, S.Good args x)
    (lp : (Fin (draws S.body).length → ℝ) → F)
    (hlp : ∀ x ∈ s, lp (S.output args out x) ≠ none ∧ LogProbRun S.staged (args.map some)
      (List.ofFn fun i => some (S.output args out x i)) (some (lp (S.output args out x)))) :
    MeasurableSet (S.output args out '' s) ∧
    (∀ᵐ ω ∂oracle P, S.returned samp keyOf args out ω ∈ S.output args out '' s) ∧
    (oracle P).map (S.returned samp keyOf args out)
      = ((volume : Measure (Fin (draws S.body).length → ℝ)).restrict (S.output args out '' s)).withDensity
          fun y => dens (lp y) := by
  have hj : ∀ x ∈ s, ∃ f' : (Fin (draws S.body).length → ℝ) →L[ℝ] (Fin (draws S.body).length → ℝ),
      HasFDerivAt (S.output args out) f' x ∧ f'.det ≠ 0 ∧
      ∃ T t, S.staged.logJoint (S.val args x) = some T ∧ lp (S.output args out x) = some t ∧
        t = T - Real.log |f'.det| := by
    intro x hx
    obtain ⟨h1, h2⟩ := hlp x hx
    obtain ⟨t, ht⟩ := Option.ne_none_iff_exists'.1 h1
    rw [ht] at h2
    obtain ⟨f', h3, h4, T, h5, h6⟩ := log_prob_jacobian h ha x (hgood x hx) t h2
    exact ⟨f', h3, h4, T, t, h5, ht, h6⟩
  choose! f' hd hdet T t hT ht htT using hj
  have hinj : Set.InjOn (S.output args out) s := fun x hx z hz e =>
    log_prob_determines h ha x z (hgood x hx) (hgood z hz) e _ (hlp x hx).2
  have hdw : ∀ x ∈ s, HasFDerivWithinAt (S.output args out) (f' x) s x := fun x hx => (hd x hx).hasFDerivWithinAt
  have hR : MeasurableSet (S.output args out '' s) := measurable_image_of_fderivWithin hms hdw hinj
  have hm := drawn_measurable P samp keyOf args h hs
  have hg : Measurable (S.output args out) := by
    have := execute_measurable (oracle P) samp S.body hs (fun _ => startVal S args)
      (fun x : Fin (draws S.body).length → ℝ => x) measurable_const measurable_id
    exact measurable_pi_lambda _ fun i => (measurable_pi_apply (out i)).comp this
  have hret : S.returned samp keyOf args out = S.output args out ∘ S.drawn samp keyOf args :=
    funext fun ω => returned_drawn samp keyOf args h ω
  refine ⟨hR, ?_, ?_⟩
  · filter_upwards [hsure] with ω hω
    rw [hret]
    exact ⟨_, hω, rfl⟩
  · rw [hret, ← Measure.map_map hg hm]
    refine Measure.ext fun B hB => ?_
    -- the random variables are in `s`
    have hs0 : ((oracle P).map (S.drawn samp keyOf args)) sᶜ = 0 := by
      rw [Measure.map_apply hm hms.compl]
      exact hsure
    rw [Measure.map_apply hg hB, withDensity_apply _ hB, Measure.restrict_restrict hB,
      ← measure_inter_add_sdiff (S.output args out ⁻¹' B) hms]
    have hz : ((oracle P).map (S.drawn samp keyOf args)) (S.output args out ⁻¹' B \ s) = 0 :=
      measure_mono_null (fun x hx => hx.2) hs0
    have himg : B ∩ S.output args out '' s = S.output args out '' (S.output args out ⁻¹' B ∩ s) := by
      rw [Set.inter_comm (_ ⁻¹' _), Set.image_inter_preimage, Set.inter_comm]
    have hms' : MeasurableSet (S.output args out ⁻¹' B ∩ s) := (hg hB).inter hms
    rw [hz, add_zero, drawn_law P samp keyOf args h hk hs, withDensity_apply _ hms', himg,
      lintegral_image_eq_lintegral_abs_det_fderiv_mul volume hms'
        (fun x hx => (hdw x hx.2).mono Set.inter_subset_right) (hinj.mono Set.inter_subset_right)]
    refine setLIntegral_congr_fun hms' fun x hx => ?_
    simp only [hT x hx.2, ht x hx.2, dens]
    have hpos : 0 < |(f' x).det| := abs_pos.2 (hdet x hx.2)
    rw [← ENNReal.ofReal_mul (abs_nonneg _), htT x hx.2, Real.exp_sub, Real.exp_log hpos, mul_div_cancel₀ _ hpos.ne']

/-- C86: if moreover `log_prob(f)` returns no number for almost all values that are not outputs (it is nan or `-inf` there),
its exponential is the density everywhere. -/
theorem log_prob_density_total_partial (h : S.Flat out) (ha : args.length = S.args.length) (hk : S.KeysApart keyOf)
    (hs : ∀ st ∈ S.body, st.Sampled (oracle P) samp) (s : Set (Fin (draws S.body).length → ℝ)) (hms : MeasurableSet s)
    (hsure : ∀ᵐ ω ∂oracle P, S.drawn samp keyOf args ω ∈ s) (hgood : ∀ x ∈ s, S.Good args x)
    (lp : (Fin (draws S.body).length → ℝ) → F)
    (hlp : ∀ x ∈ s, lp (S.output args out x) ≠ none ∧ LogProbRun S.staged (args.map some)
      (List.ofFn fun i => some (S.output args out x i)) (some (lp (S.output args out x))))
    (hoff : ∀ᵐ y, y ∉ S.output args out '' s → lp y = none) :
    (oracle P).map (S.returned samp keyOf args out) = volume.withDensity fun y => dens (lp y) := by
  obtain ⟨h1, -, h3⟩ := log_prob_density_partial P samp keyOf args h ha hk hs s hms hsure hgood lp hlp
  rw [h3]
  refine Measure.ext fun B hB => ?_
  rw [withDensity_apply _ hB, withDensity_apply _ hB, Measure.restrict_restrict hB, ← lintegral_inter_add_sdiff _ B h1]
  have hz : ∫⁻ y in B \ S.output args out '' s, dens (lp y) = 0 := by
    refine lintegral_eq_zero_of_ae_eq_zero ?_
    have := ae_restrict_of_ae (s := B \ S.output args out '' s) hoff
    filter_upwards [this, ae_restrict_mem (hB.diff h1)] with y hy hmem
    simp [hy hmem.2, dens]
  rw [hz, add_zero, Set.inter_comm]

end Law

end Verif.LogProb.Joint
