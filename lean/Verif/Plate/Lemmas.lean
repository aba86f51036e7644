import Verif.Plate.Spec

namespace Verif.Plate

open MeasureTheory ProbabilityTheory

variable {Ω : Type}

/-- A program whose keys all extend `k` runs as if `k` were the root of the keys. -/
theorem exec_graft (axes : String → Option ℕ) (ω : Key → Ω) (k : Key) (p : Prog Ω) (paths : ℕ → Key)
    (env : ℕ → ℝ) (reaps : List (String × ℝ)) :
    exec axes ω p (fun y => paths y ++ k) env reaps = exec axes (fun q => ω (q ++ k)) p paths env reaps := by
  have hset : ∀ (paths : ℕ → Key) y (q : Key),
      set (fun y => paths y ++ k) y (q ++ k) = fun z => set paths y q z ++ k := by
    intro paths y q
    funext z
    simp only [set]
    split <;> rfl
  induction p generalizing paths env reaps with
  | done => rfl
  | prim x g rest ih => exact ih _ _ _
  | split y k' n i rest ih =>
    simp only [exec]
    rw [← ih, ← List.cons_append, hset]
  | foldIn y k' i rest ih =>
    simp only [exec]
    rw [← ih, ← List.cons_append, hset]
  | draw x k' h rest ih => exact ih _ _ _
  | tag n x rest ih =>
    simp only [exec]
    split
    · rfl
    · exact ih _ _ _
  | plate x a k' body r rest ihb ihr =>
    simp only [exec]
    split
    · rfl
    · rename_i i _
      have := ihb (fun _ => .foldIn i :: paths k') env []
      simp only [List.cons_append] at this
      rw [this]
      cases exec axes (fun q => ω (q ++ k)) body (fun _ => .foldIn i :: paths k') env [] with
      | error e => rfl
      | ok out =>
        simp only [bind, Except.bind]
        cases merge reaps out.2 with
        | error e => rfl
        | ok reaps' => exact ihr _ _ _

/-- A call with key `k` is the call with a fresh key under the randomness of the descendants of `k`. -/
theorem call_graft (axes : String → Option ℕ) (ω : Key → Ω) (f : Prog Ω) (k : Key) (args : ℕ → ℝ) :
    call axes ω f k args = call axes (fun q => ω (q ++ k)) f [] args :=
  exec_graft axes ω k f (fun _ => []) args []

/-- Only the axes of its plates matter to a program. -/
theorem exec_axes (axes axes' : String → Option ℕ) (ω : Key → Ω) (p : Prog Ω)
    (h : ∀ a ∈ axesOf p, axes a = axes' a) (keys : ℕ → Key) (env : ℕ → ℝ) (reaps : List (String × ℝ)) :
    exec axes ω p keys env reaps = exec axes' ω p keys env reaps := by
  induction p generalizing keys env reaps with
  | done => rfl
  | prim x g rest ih => exact ih h _ _ _
  | split y k n i rest ih => exact ih h _ _ _
  | foldIn y k i rest ih => exact ih h _ _ _
  | draw x k g rest ih => exact ih h _ _ _
  | tag n x rest ih =>
    simp only [exec]
    split
    · rfl
    · exact ih h _ _ _
  | plate x a k body r rest ihb ihr =>
    have ha : axes a = axes' a := h a (by simp [axesOf])
    have hb := ihb fun b hb => h b (by simp [axesOf, hb])
    have hr := ihr fun b hb => h b (by simp [axesOf, hb])
    simp only [exec, ha]
    split
    · rfl
    · simp only [hb, hr]

/-! ### Measurability -/

/-- Reaped values that depend on a parameter. -/
def inst {T : Type} (rs : List (String × (T → ℝ))) (t : T) : List (String × ℝ) :=
  rs.map fun r => (r.1, r.2 t)

theorem inst_fst {T : Type} (rs : List (String × (T → ℝ))) (t : T) :
    (inst rs t).map Prod.fst = rs.map Prod.fst := by
  simp [inst, Function.comp_def]

theorem merge_inst {T : Type} (rs ri : List (String × (T → ℝ))) :
    (∃ e, ∀ t, merge (inst rs t) (inst ri t) = .error e)
      ∨ ∀ t, merge (inst rs t) (inst ri t) = .ok (inst (rs ++ ri) t) := by
  induction ri generalizing rs with
  | nil => right; intro t; simp [inst, merge]
  | cons r ri ih =>
    by_cases hc : (rs.map Prod.fst).contains r.1 = true
    · left
      refine ⟨.duplicate r.1, fun t => ?_⟩
      simp only [inst, List.map_cons, merge]
      rw [show (List.map (fun r => (r.1, r.2 t)) rs).map Prod.fst = rs.map Prod.fst from inst_fst rs t,
        if_pos hc]
    · have hm : ∀ t, merge (inst rs t) (inst (r :: ri) t) = merge (inst (rs ++ [r]) t) (inst ri t) := by
        intro t
        simp only [inst, List.map_cons, merge, List.map_append, List.map_nil]
        rw [show (List.map (fun r => (r.1, r.2 t)) rs).map Prod.fst = rs.map Prod.fst from inst_fst rs t,
          if_neg hc]
      have e : rs ++ r :: ri = (rs ++ [r]) ++ ri := by simp
      rw [e]
      rcases ih (rs ++ [r]) with ⟨e, he⟩ | h
      · exact Or.inl ⟨e, fun t => (hm t).trans (he t)⟩
      · exact Or.inr fun t => (hm t).trans (h t)

variable [MeasurableSpace Ω]

theorem measurable_set {T : Type} [MeasurableSpace T] {env : T → ℕ → ℝ} (he : Measurable env) (x : ℕ)
    {v : T → ℝ} (hv : Measurable v) : Measurable fun t => set (env t) x (v t) := by
  refine measurable_pi_lambda _ fun y => ?_
  by_cases h : y = x
  · simpa [set, h] using hv
  · simpa [set, h] using show Measurable fun t => env t y from (measurable_pi_apply y).comp he

/-- Whether and how a program fails does not depend on the random numbers or on the values; otherwise its results
are measurable functions of them. -/
theorem exec_measurable {T : Type} [MeasurableSpace T] (axes : String → Option ℕ) (W : T → Key → Ω)
    (hW : Measurable W) (p : Prog Ω) (hp : Meas p) (keys : ℕ → Key) (env : T → ℕ → ℝ) (he : Measurable env)
    (rs : List (String × (T → ℝ))) (hrs : ∀ r ∈ rs, Measurable r.2) :
    (∃ e, ∀ t, exec axes (W t) p keys (env t) (inst rs t) = .error e)
      ∨ ∃ (env' : T → ℕ → ℝ) (rs' : List (String × (T → ℝ))), Measurable env' ∧
        (∀ r ∈ rs', Measurable r.2) ∧
        ∀ t, exec axes (W t) p keys (env t) (inst rs t) = .ok (env' t, inst rs' t) := by
  induction p generalizing keys env rs with
  | done => exact Or.inr ⟨env, rs, he, hrs, fun t => rfl⟩
  | prim x g rest ih =>
    exact ih hp.2 keys (fun t => set (env t) x (g (env t))) (measurable_set he x (hp.1.comp he)) rs hrs
  | split y k n i rest ih => exact ih hp _ env he rs hrs
  | foldIn y k i rest ih => exact ih hp _ env he rs hrs
  | draw x k h rest ih =>
    refine ih hp.2 keys (fun t => set (env t) x (h (W t (keys k)) (env t))) (measurable_set he x ?_) rs hrs
    exact hp.1.comp (((measurable_pi_apply (keys k)).comp hW).prodMk he)
  | tag n x rest ih =>
    by_cases hc : (rs.map Prod.fst).contains n = true
    · left
      refine ⟨.duplicate n, fun t => ?_⟩
      simp only [exec, inst_fst]
      rw [if_pos hc]
    · have := ih hp keys env he (rs ++ [(n, fun t => env t x)]) (by
        intro r hr
        simp only [List.mem_append, List.mem_singleton] at hr
        rcases hr with hr | rfl
        · exact hrs r hr
        · exact (measurable_pi_apply x).comp he)
      have e : ∀ t, exec axes (W t) (.tag n x rest) keys (env t) (inst rs t)
          = exec axes (W t) rest keys (env t) (inst (rs ++ [(n, fun t => env t x)]) t) := by
        intro t
        simp only [exec, inst_fst]
        rw [if_neg hc]
        simp [inst]
      simpa only [e] using this
  | plate x a k body r rest ihb ihr =>
    cases ha : axes a with
    | none =>
      left
      exact ⟨.noAxis a, fun t => by simp only [exec, ha]⟩
    | some i =>
      rcases ihb hp.1 (fun _ => .foldIn i :: keys k) env he [] (by simp) with ⟨e, h⟩ | ⟨env1, rs1, h1, h2, h⟩
      · left
        refine ⟨e, fun t => ?_⟩
        simp only [exec, ha, bind, Except.bind]
        rw [show exec axes (W t) body (fun _ => .foldIn i :: keys k) (env t) [] = _ from h t]
      · have hE : ∀ t, exec axes (W t) (.plate x a k body r rest) keys (env t) (inst rs t)
            = (merge (inst rs t) (inst rs1 t)).bind fun reaps =>
                exec axes (W t) rest keys (set (env t) x (env1 t r)) reaps := by
          intro t
          simp only [exec, ha, bind, Except.bind]
          rw [show exec axes (W t) body (fun _ => .foldIn i :: keys k) (env t) [] = _ from h t]
        rcases merge_inst rs rs1 with ⟨e, hm⟩ | hm
        · left
          refine ⟨e, fun t => ?_⟩
          rw [hE, hm]
          rfl
        · have := ihr hp.2 keys (fun t => set (env t) x (env1 t r))
            (measurable_set he x ((measurable_pi_apply r).comp h1)) (rs ++ rs1) (by
              intro q hq
              rcases List.mem_append.1 hq with hq | hq
              · exact hrs q hq
              · exact h2 q hq)
          have e : ∀ t, exec axes (W t) (.plate x a k body r rest) keys (env t) (inst rs t)
              = exec axes (W t) rest keys (set (env t) x (env1 t r)) (inst (rs ++ rs1) t) := by
            intro t
            rw [hE, hm]
            rfl
          simpa only [e] using this

theorem measurable_lookup {T : Type} [MeasurableSpace T] (rs : List (String × (T → ℝ)))
    (h : ∀ r ∈ rs, Measurable r.2) (n : String) : Measurable fun t => ((inst rs t).lookup n).getD 0 := by
  induction rs with
  | nil => exact measurable_const
  | cons r rs ih =>
    have ih := ih fun q hq => h q (List.mem_cons_of_mem _ hq)
    simp only [inst, List.map_cons, List.lookup_cons]
    by_cases hn : n = r.1
    · simpa [hn] using h r List.mem_cons_self
    · have : (n == r.1) = false := by simpa using hn
      simp only [this]
      exact ih

/-- The observable result of a call is a measurable function of the generator. -/
theorem values_measurable (axes : String → Option ℕ) (f : Prog Ω) (hf : Meas f) (key : Key) (args : ℕ → ℝ) :
    Measurable fun ω : Key → Ω => values (call axes ω f key args) := by
  rcases exec_measurable axes (fun ω : Key → Ω => ω) measurable_id f hf (fun _ => key) (fun _ => args)
    measurable_const [] (by simp) with ⟨e, h⟩ | ⟨env', rs', h1, h2, h⟩
  · have : (fun ω : Key → Ω => values (call axes ω f key args)) = fun _ => (fun _ => 0, fun _ => 0) := by
      funext ω
      rw [call, show exec axes ω f (fun _ => key) args [] = _ from h ω]
      rfl
    rw [this]
    exact measurable_const
  · have : (fun ω : Key → Ω => values (call axes ω f key args))
        = fun ω => (env' ω, fun n => ((inst rs' ω).lookup n).getD 0) := by
      funext ω
      rw [call, show exec axes ω f (fun _ => key) args [] = _ from h ω]
      rfl
    rw [this]
    exact h1.prodMk (measurable_pi_lambda _ fun n => measurable_lookup rs' h2 n)

/-! ### The joint distribution of runs with unrelated keys -/

/-- Descendants of unrelated keys are different. -/
theorem graft_injective {ι : Type} (keys : ι → Key) (h : ∀ i j, i ≠ j → ¬ keys i <:+ keys j) :
    Function.Injective fun z : ι × Key => z.2 ++ keys z.1 := by
  rintro ⟨i, p⟩ ⟨j, q⟩ e
  simp only at e
  have hij : i = j := by
    by_contra hij
    have h1 : keys i <:+ q ++ keys j := ⟨p, e⟩
    rcases List.suffix_or_suffix_of_suffix h1 (List.suffix_append q (keys j)) with h' | h'
    · exact h i j hij h'
    · exact h j i (Ne.symm hij) h'
  subst hij
  rw [List.append_cancel_right e]

/-- The randomness of the descendants of unrelated keys: independent copies of the generator. -/
theorem oracle_graft {ι : Type} (P : Measure Ω) [IsProbabilityMeasure P] (keys : ι → Key)
    (h : ∀ i j, i ≠ j → ¬ keys i <:+ keys j) :
    (oracle P).map (fun ω (i : ι) (q : Key) => ω (q ++ keys i)) = Measure.infinitePi fun _ : ι => oracle P := by
  have h1 := Measure.map_infinitePi_infinitePi_of_inj (Ω := fun _ : Key => Ω) (P := fun _ => P)
    (graft_injective keys h)
  have h2 := Measure.infinitePi_map_curry (fun (_ : ι) (_ : Key) => P)
  unfold oracle
  rw [← h2, ← h1, Measure.map_map (by fun_prop) (by fun_prop)]
  rfl

end Verif.Plate
