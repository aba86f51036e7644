import Verif.Plate.Lemmas
import Mathlib.Probability.IdentDistrib

/-!
# C80: plates draw independent samples along their axis

`vmap a n prog axes keys args` is `vmap(prog, axis_name=a)`; `callPlate a` is `plate(f, name=a)`. The samples of
the lanes are random variables on the space of the generator, whose distribution is `oracle P`.
-/

namespace Verif.Plate

open MeasureTheory ProbabilityTheory

variable {Ω : Type} [MeasurableSpace Ω]

/-! ### Runs with unrelated keys -/

instance (P : Measure Ω) [IsProbabilityMeasure P] : IsProbabilityMeasure (oracle P) := by
  unfold oracle; infer_instance

theorem law_probability (P : Measure Ω) [IsProbabilityMeasure P] (axes : String → Option ℕ) (f : Prog Ω)
    (hf : Meas f) (args : ℕ → ℝ) : IsProbabilityMeasure (law P axes f args) :=
  Measure.isProbabilityMeasure_map (values_measurable axes f hf [] args).aemeasurable

/-- Calls of programs with unrelated keys (none derived from another) are independent, and each has the
distribution of a call with a fresh key. -/
theorem calls_joint_law {ι : Type} (P : Measure Ω) [IsProbabilityMeasure P] (keys : ι → Key)
    (h : ∀ i j, i ≠ j → ¬ keys i <:+ keys j) (axes : ι → String → Option ℕ) (f : ι → Prog Ω)
    (hf : ∀ i, Meas (f i)) (args : ι → ℕ → ℝ) :
    (oracle P).map (fun ω i => values (call (axes i) ω (f i) (keys i) (args i)))
      = Measure.infinitePi fun i => law P (axes i) (f i) (args i) := by
  have hm : ∀ i, Measurable fun ω : Key → Ω => values (call (axes i) ω (f i) [] (args i)) := fun i =>
    values_measurable (axes i) (f i) (hf i) [] (args i)
  have h2 := Measure.infinitePi_map_pi (μ := fun _ : ι => oracle P) hm
  have hM : Measurable fun (x : ι → Key → Ω) i => values (call (axes i) (x i) (f i) [] (args i)) :=
    measurable_pi_lambda _ fun i => (hm i).comp (measurable_pi_apply i)
  rw [← oracle_graft P keys h, Measure.map_map hM (by fun_prop)] at h2
  rw [show (fun i => law P (axes i) (f i) (args i))
    = fun i => (oracle P).map fun ω => values (call (axes i) ω (f i) [] (args i)) from rfl, ← h2]
  congr 1
  funext ω i
  simp only [Function.comp_apply]
  rw [call_graft]

/-- A call has the same distribution whatever its key. -/
theorem call_law (P : Measure Ω) [IsProbabilityMeasure P] (key : Key) (axes : String → Option ℕ) (f : Prog Ω)
    (hf : Meas f) (args : ℕ → ℝ) :
    (oracle P).map (fun ω => values (call axes ω f key args)) = law P axes f args := by
  have hm := values_measurable axes f hf key args
  have h1 := calls_joint_law (ι := Unit) P (fun _ => key) (by simp) (fun _ => axes) (fun _ => f)
    (fun _ => hf) (fun _ => args)
  have h2 := congrArg (fun μ => μ.map fun x : Unit → _ => x ()) h1
  have hlaw := law_probability P axes f hf args
  rw [Measure.map_map (by fun_prop) (measurable_pi_lambda _ fun _ => hm), Measure.infinitePi_map_eval] at h2
  exact h2

/-- Calls of programs with unrelated keys are independent. -/
theorem calls_independent {ι : Type} (P : Measure Ω) [IsProbabilityMeasure P] (keys : ι → Key)
    (h : ∀ i j, i ≠ j → ¬ keys i <:+ keys j) (axes : ι → String → Option ℕ) (f : ι → Prog Ω)
    (hf : ∀ i, Meas (f i)) (args : ι → ℕ → ℝ) :
    iIndepFun (fun i ω => values (call (axes i) ω (f i) (keys i) (args i))) (oracle P) := by
  have hm : ∀ i, Measurable fun ω : Key → Ω => values (call (axes i) ω (f i) (keys i) (args i)) := fun i =>
    values_measurable (axes i) (f i) (hf i) (keys i) (args i)
  rw [iIndepFun_iff_map_fun_eq_infinitePi_map hm, calls_joint_law P keys h axes f hf args]
  congr 1
  funext i
  exact (call_law P (keys i) (axes i) (f i) (hf i) (args i)).symm

/-! ### Plates -/

theorem suffix_same_length {k k' : Key} (h : k <:+ k') (hl : k.length = k'.length) : k = k' :=
  h.eq_of_length hl

/-- **C80.** `vmap(plate(f, name=a), axis_name=a)` with one key for all lanes: the samples of the lanes are
independent, and their joint distribution is the product of the distributions of `f` in each lane. -/
theorem plate_joint_law (P : Measure Ω) [IsProbabilityMeasure P] (a : String) (n : ℕ) (axes : String → Option ℕ)
    (f : Prog Ω) (hf : Meas f) (key : Key) (args : Fin n → ℕ → ℝ) :
    (oracle P).map (fun ω => fun i =>
        values (vmap a n (fun ax k x => callPlate a ax ω f k x) axes (fun _ => key) args i))
      = Measure.pi fun i : Fin n => law P (withAxis axes a i) f (args i) := by
  have h := calls_joint_law P (fun i : Fin n => Step.foldIn i :: key) (by
      intro i j hij hs
      have := suffix_same_length hs (by simp)
      simp only [List.cons.injEq, Step.foldIn.injEq, and_true] at this
      exact hij (Fin.ext this)) (fun i => withAxis axes a i) (fun _ => f) (fun _ => hf) args
  have hp : ∀ i : Fin n, IsProbabilityMeasure (law P (withAxis axes a i) f (args i)) := fun i =>
    law_probability P _ f hf (args i)
  rw [← Measure.infinitePi_eq_pi, ← h]
  congr 1
  funext ω i
  simp [vmap, callPlate, withAxis]

/-- **C80.** The samples of a plate whose program has no other plate over the same axis are independent and
identically distributed when the lanes have the same arguments. -/
theorem plate_iid (P : Measure Ω) [IsProbabilityMeasure P] (a : String) (n : ℕ) (axes : String → Option ℕ)
    (f : Prog Ω) (hf : Meas f) (ha : a ∉ axesOf f) (key : Key) (args : ℕ → ℝ) :
    (oracle P).map (fun ω => fun i =>
        values (vmap a n (fun ax k x => callPlate a ax ω f k x) axes (fun _ => key) (fun _ => args) i))
      = Measure.pi fun _ : Fin n => law P axes f args := by
  rw [plate_joint_law P a n axes f hf key]
  congr 1
  funext i
  unfold law
  congr 1
  funext ω
  refine congrArg values (exec_axes _ _ ω f (fun b hb => ?_) _ _ _)
  have : b ≠ a := fun e => ha (e ▸ hb)
  simp [withAxis, this]

/-- **C80.** A plate with one key has the distribution of `vmap` over the keys of `random.split`. -/
theorem plate_eq_vmap_split (P : Measure Ω) [IsProbabilityMeasure P] (a : String) (n : ℕ)
    (axes : String → Option ℕ) (f : Prog Ω) (hf : Meas f) (key key' : Key) (args : Fin n → ℕ → ℝ) :
    (oracle P).map (fun ω => fun i =>
        values (vmap a n (fun ax k x => callPlate a ax ω f k x) axes (fun _ => key) args i))
      = (oracle P).map (fun ω => fun i =>
        values (vmap a n (fun ax k x => call ax ω f k x) axes (splitKeys n key') args i)) := by
  have h := calls_joint_law P (splitKeys n key') (by
      intro i j hij hs
      have := suffix_same_length hs (by simp [splitKeys])
      simp only [splitKeys, List.cons.injEq, Step.split.injEq, true_and, and_true] at this
      exact hij (Fin.ext this)) (fun i => withAxis axes a i) (fun _ => f) (fun _ => hf) args
  have hp : ∀ i : Fin n, IsProbabilityMeasure (law P (withAxis axes a i) f (args i)) := fun i =>
    law_probability P _ f hf (args i)
  rw [plate_joint_law P a n axes f hf key, ← Measure.infinitePi_eq_pi, ← h]
  rfl

/-- **C80.** Lanes that are given different keys of the same depth (for example those of `random.split`) are
independent too. -/
theorem plate_independent_keys (P : Measure Ω) [IsProbabilityMeasure P] (a : String) (n : ℕ)
    (axes : String → Option ℕ) (f : Prog Ω) (hf : Meas f) (keys : Fin n → Key)
    (hk : ∀ i j, (keys i).length = (keys j).length) (args : Fin n → ℕ → ℝ) :
    iIndepFun (fun i ω => values (vmap a n (fun ax k x => callPlate a ax ω f k x) axes keys args i))
      (oracle P) := by
  have h := calls_independent P (fun i : Fin n => Step.foldIn i :: keys i) (by
      intro i j hij hs
      have := suffix_same_length hs (by simp [hk i j])
      simp only [List.cons.injEq, Step.foldIn.injEq] at this
      exact hij (Fin.ext this.1)) (fun i => withAxis axes a i) (fun _ => f) (fun _ => hf) args
  refine h.congr fun i => ?_
  refine Filter.EventuallyEq.of_eq ?_
  funext ω
  simp [vmap, callPlate, withAxis]

/-- A plate within a plate, in one lane. -/
def callPlates (a b : String) (axes : String → Option ℕ) (ω : Key → Ω) (f : Prog Ω) (key : Key)
    (args : ℕ → ℝ) : Except Err ((ℕ → ℝ) × List (String × ℝ)) :=
  match axes a with
  | none => .error (.noAxis a)
  | some i => callPlate b axes ω f (.foldIn i :: key) args

/-- **C80.** Nested plates `plate(plate(f, name=b), name=a)` mapped over both axes with one key: the samples at
all pairs of indices are independent. -/
theorem nested_plates_independent (P : Measure Ω) [IsProbabilityMeasure P] (a b : String) (hab : a ≠ b)
    (n m : ℕ) (axes : String → Option ℕ) (f : Prog Ω) (hf : Meas f) (key : Key)
    (args : Fin n → Fin m → ℕ → ℝ) :
    iIndepFun (fun (ij : Fin n × Fin m) ω =>
      values (vmap a n (fun ax k (_ : ℕ → ℝ) =>
        vmap b m (fun ax k x => callPlates a b ax ω f k x) ax (fun _ => k) (args ij.1))
          axes (fun _ => key) (fun i => args i ij.2) ij.1 ij.2)) (oracle P) := by
  have h := calls_independent P (fun ij : Fin n × Fin m => Step.foldIn ij.2 :: Step.foldIn ij.1 :: key) (by
      intro i j hij hs
      have := suffix_same_length hs (by simp)
      simp only [List.cons.injEq, Step.foldIn.injEq, and_true] at this
      exact hij (Prod.ext (Fin.ext this.2) (Fin.ext this.1)))
    (fun ij => withAxis (withAxis axes a ij.1) b ij.2) (fun _ => f) (fun _ => hf)
    (fun ij => args ij.1 ij.2)
  refine h.congr fun ij => ?_
  refine Filter.EventuallyEq.of_eq ?_
  funext ω
  simp [vmap, callPlates, callPlate, withAxis, hab]

omit [MeasurableSpace Ω] in
/-- **C80.** A plate over one axis draws one sample for each index of that axis: mapped over a second axis with
the same key and arguments, all the lanes of the second axis get the same sample. -/
theorem plate_shared_over_other_axes (a b : String) (axes : String → Option ℕ) (ω : Key → Ω) (f : Prog Ω)
    (hb : b ∉ axesOf f) (hab : a ≠ b) (m : ℕ) (key : Key) (args : ℕ → ℝ) (j j' : Fin m) :
    vmap b m (fun ax k x => callPlate a ax ω f k x) axes (fun _ => key) (fun _ => args) j
      = vmap b m (fun ax k x => callPlate a ax ω f k x) axes (fun _ => key) (fun _ => args) j' := by
  have e : ∀ j : Fin m, withAxis axes b j a = axes a := fun j => by simp [withAxis, hab]
  simp only [vmap, callPlate, e]
  cases axes a with
  | none => rfl
  | some i =>
    refine exec_axes _ _ ω f (fun c hc => ?_) _ _ _
    have : c ≠ b := fun h => hb (h ▸ hc)
    simp [withAxis, this]

omit [MeasurableSpace Ω] in
/-- Without a plate, lanes with the same key and arguments all get the same sample. -/
theorem no_plate_shared (a : String) (axes : String → Option ℕ) (ω : Key → Ω) (f : Prog Ω)
    (ha : a ∉ axesOf f) (n : ℕ) (key : Key) (args : ℕ → ℝ) (i i' : Fin n) :
    vmap a n (fun ax k x => call ax ω f k x) axes (fun _ => key) (fun _ => args) i
      = vmap a n (fun ax k x => call ax ω f k x) axes (fun _ => key) (fun _ => args) i' := by
  refine exec_axes _ _ ω f (fun c hc => ?_) _ _ _
  have : c ≠ a := fun h => ha (h ▸ hc)
  simp [withAxis, this]

omit [MeasurableSpace Ω] in
theorem merge_ok_iff (reaps inner : List (String × ℝ)) :
    (∀ out, merge reaps inner = .ok out → out = reaps ++ inner) ∧
    ((∃ out, merge reaps inner = .ok out) ↔
      (inner.map Prod.fst).Nodup ∧ ∀ n ∈ inner.map Prod.fst, n ∉ reaps.map Prod.fst) := by
  induction inner generalizing reaps with
  | nil => simp [merge]
  | cons r inner ih =>
    obtain ⟨n, v⟩ := r
    by_cases hc : n ∈ reaps.map Prod.fst
    · have : merge reaps ((n, v) :: inner) = .error (.duplicate n) := by
        simp only [merge]
        rw [if_pos (by simpa using hc)]
      rw [this]
      refine ⟨fun _ h => (nomatch h), ⟨fun ⟨_, h⟩ => (nomatch h), fun h => ?_⟩⟩
      exact absurd hc (h.2 n (by simp))
    · have : merge reaps ((n, v) :: inner) = merge (reaps ++ [(n, v)]) inner := by
        simp only [merge]
        rw [if_neg (by simpa using hc)]
      rw [this]
      obtain ⟨h1, h2⟩ := ih (reaps ++ [(n, v)])
      refine ⟨fun out h => by rw [h1 out h]; simp, h2.trans ?_⟩
      simp only [List.map_append, List.map_cons, List.map_nil, List.mem_append, List.mem_cons,
        List.not_mem_nil, or_false, List.nodup_cons, not_or]
      constructor
      · rintro ⟨hn, h⟩
        refine ⟨⟨fun hm => (h n hm).2 rfl, hn⟩, ?_⟩
        rintro m (rfl | hm)
        · exact hc
        · exact (h m hm).1
      · rintro ⟨⟨hm, hn⟩, h⟩
        refine ⟨hn, fun m hm' => ⟨h m (Or.inr hm'), fun e => hm (e ▸ hm')⟩⟩

omit [MeasurableSpace Ω] in
theorem exec_ok (axes : String → Option ℕ) (ω : Key → Ω) (p : Prog Ω) (keys : ℕ → Key) (env : ℕ → ℝ)
    (reaps : List (String × ℝ)) :
    (∀ out, exec axes ω p keys env reaps = .ok out → out.2.map Prod.fst = reaps.map Prod.fst ++ namesOf p) ∧
    ((∃ out, exec axes ω p keys env reaps = .ok out) ↔
      (∀ a ∈ axesOf p, axes a ≠ none) ∧ (namesOf p).Nodup ∧ ∀ n ∈ namesOf p, n ∉ reaps.map Prod.fst) := by
  induction p generalizing keys env reaps with
  | done => exact ⟨fun out h => by cases h; simp [namesOf], by simp [exec, axesOf, namesOf]⟩
  | prim x g rest ih => exact ih _ _ _
  | split y k n i rest ih => exact ih _ _ _
  | foldIn y k i rest ih => exact ih _ _ _
  | draw x k h rest ih => exact ih _ _ _
  | tag n x rest ih =>
    by_cases hc : n ∈ reaps.map Prod.fst
    · have : exec axes ω (.tag n x rest) keys env reaps = .error (.duplicate n) := by
        simp only [exec]
        rw [if_pos (by simpa using hc)]
      rw [this]
      refine ⟨fun _ h => (nomatch h), ⟨fun ⟨_, h⟩ => (nomatch h), fun h => ?_⟩⟩
      exact absurd hc (h.2.2 n (by simp [namesOf]))
    · have : exec axes ω (.tag n x rest) keys env reaps
          = exec axes ω rest keys env (reaps ++ [(n, env x)]) := by
        simp only [exec]
        rw [if_neg (by simpa using hc)]
      rw [this]
      obtain ⟨h1, h2⟩ := ih keys env (reaps ++ [(n, env x)])
      refine ⟨fun out h => by rw [h1 out h]; simp [namesOf], h2.trans ?_⟩
      simp only [axesOf, namesOf, List.map_append, List.map_cons, List.map_nil, List.mem_append,
        List.not_mem_nil, or_false, List.nodup_cons, List.mem_cons, not_or]
      refine and_congr_right fun _ => ?_
      constructor
      · rintro ⟨hn, h⟩
        refine ⟨⟨fun hm => (h n hm).2 rfl, hn⟩, ?_⟩
        rintro m (rfl | hm)
        · exact hc
        · exact (h m hm).1
      · rintro ⟨⟨hm, hn⟩, h⟩
        exact ⟨hn, fun m hm' => ⟨h m (Or.inr hm'), fun e => hm (e ▸ hm')⟩⟩
  | plate x a k body r rest ihb ihr =>
    cases ha : axes a with
    | none =>
      have : exec axes ω (.plate x a k body r rest) keys env reaps = .error (.noAxis a) := by
        simp only [exec, ha]
      rw [this]
      refine ⟨fun _ h => (nomatch h), ⟨fun ⟨_, h⟩ => (nomatch h), fun h => ?_⟩⟩
      exact absurd ha (h.1 a (by simp [axesOf]))
    | some i =>
      obtain ⟨b1, b2⟩ := ihb (fun _ => .foldIn i :: keys k) env []
      have haux : (∀ c ∈ axesOf (Prog.plate x a k body r rest), axes c ≠ none) ↔
          (∀ c ∈ axesOf body, axes c ≠ none) ∧ ∀ c ∈ axesOf rest, axes c ≠ none := by
        simp only [axesOf, List.mem_append, List.mem_cons]
        constructor
        · intro h
          exact ⟨fun c hc => h c (Or.inl (Or.inr hc)), fun c hc => h c (Or.inr hc)⟩
        · rintro ⟨h1, h2⟩ c ((rfl | hc) | hc)
          · rw [ha]; simp
          · exact h1 c hc
          · exact h2 c hc
      have hnd : (namesOf (Prog.plate x a k body r rest)).Nodup ↔
          (namesOf body).Nodup ∧ (namesOf rest).Nodup ∧ ∀ n ∈ namesOf rest, n ∉ namesOf body := by
        simp only [namesOf, List.nodup_append']
        refine and_congr_right fun _ => and_congr_right fun _ => ?_
        rw [List.disjoint_comm]
        rfl
      rw [haux, hnd]
      cases hb : exec axes ω body (fun _ => .foldIn i :: keys k) env [] with
      | error e =>
        have : exec axes ω (.plate x a k body r rest) keys env reaps = .error e := by
          simp only [exec, ha, hb, bind, Except.bind]
        rw [this]
        refine ⟨fun _ h => (nomatch h), ⟨fun ⟨_, h⟩ => (nomatch h), fun h => ?_⟩⟩
        obtain ⟨out, ho⟩ := b2.2 ⟨h.1.1, h.2.1.1, by simp⟩
        rw [hb] at ho
        cases ho
      | ok out =>
        have hn := b1 out hb
        obtain ⟨hb1, hb2, -⟩ := b2.1 ⟨out, hb⟩
        simp only [List.map_nil, List.nil_append] at hn
        obtain ⟨m1, m2⟩ := merge_ok_iff reaps out.2
        rw [hn] at m2
        cases hm : merge reaps out.2 with
        | error e =>
          have : exec axes ω (.plate x a k body r rest) keys env reaps = .error e := by
            simp only [exec, ha, hb, hm, bind, Except.bind]
          rw [this]
          refine ⟨fun _ h => (nomatch h), ⟨fun ⟨_, h⟩ => (nomatch h), fun h => ?_⟩⟩
          obtain ⟨o, ho⟩ := m2.2 ⟨hb2, fun n hn => h.2.2 n (by simp [namesOf, hn])⟩
          rw [hm] at ho
          cases ho
        | ok reaps' =>
          have : exec axes ω (.plate x a k body r rest) keys env reaps
              = exec axes ω rest keys (set env x (out.1 r)) reaps' := by
            simp only [exec, ha, hb, hm, bind, Except.bind]
          rw [this]
          have hr' := m1 _ hm
          obtain ⟨r1, r2⟩ := ihr keys (set env x (out.1 r)) reaps'
          have hmm := (m2.1 ⟨_, hm⟩).2
          have hn' : reaps'.map Prod.fst = reaps.map Prod.fst ++ namesOf body := by rw [hr']; simp [hn]
          refine ⟨fun o ho => by rw [r1 o ho, hn']; simp [namesOf], r2.trans ?_⟩
          rw [hn']
          simp only [namesOf, List.mem_append, not_or]
          constructor
          · rintro ⟨h1, h2, h3⟩
            refine ⟨⟨hb1, h1⟩, ⟨hb2, h2, fun n hn => (h3 n hn).2⟩, ?_⟩
            rintro n (hn | hn)
            · exact hmm n hn
            · exact (h3 n hn).1
          · rintro ⟨⟨-, h1⟩, ⟨-, h2, h3⟩, h4⟩
            exact ⟨h1, h2, fun n hn => ⟨h4 n (Or.inr hn), h3 n hn⟩⟩

omit [MeasurableSpace Ω] in
/-- **C80.** A plated program runs exactly when an axis of the plate's name, and of the name of every plate inside,
is in scope, and no name is tagged twice; then the names it shows are those it tags, in order, whatever the
random numbers and the arguments. -/
theorem plate_runs_iff (a : String) (axes : String → Option ℕ) (ω : Key → Ω) (f : Prog Ω) (key : Key)
    (args : ℕ → ℝ) :
    ((∃ out, callPlate a axes ω f key args = .ok out) ↔
      axes a ≠ none ∧ (∀ b ∈ axesOf f, axes b ≠ none) ∧ (namesOf f).Nodup) ∧
    ∀ out, callPlate a axes ω f key args = .ok out → out.2.map Prod.fst = namesOf f := by
  unfold callPlate
  cases ha : axes a with
  | none => exact ⟨⟨fun ⟨_, h⟩ => (nomatch h), fun h => absurd rfl h.1⟩, fun _ h => (nomatch h)⟩
  | some i =>
    obtain ⟨h1, h2⟩ := exec_ok axes ω f (fun _ => .foldIn i :: key) args []
    refine ⟨h2.trans ?_, fun out h => by simpa using h1 out h⟩
    simp

omit [MeasurableSpace Ω] in
/-- **C80.** Outside of any axis of its name, a plate raises a `NameError`. -/
theorem plate_no_axis (a : String) (axes : String → Option ℕ) (h : axes a = none) (ω : Key → Ω) (f : Prog Ω)
    (key : Key) (args : ℕ → ℝ) : callPlate a axes ω f key args = .error (.noAxis a) := by
  simp [callPlate, h]

/-! ### Examples -/

/-- `z = random.normal(key)`, tagged `z`; the sampler is the randomness itself. -/
def gaussian : Prog ℝ := .draw 0 0 (fun w _ => w) (.tag "z" 0 .done)

example : Meas gaussian ∧ "foo" ∉ axesOf gaussian :=
  ⟨⟨measurable_fst, trivial⟩, by simp [gaussian, axesOf]⟩

example (ω : Key → ℝ) (i : Fin 3) :
    vmap "foo" 3 (fun ax k x => callPlate "foo" ax ω gaussian k x) (fun _ => none) (fun _ => [.seed 0])
      (fun _ _ => 0) i
    = .ok (set (fun _ => 0) 0 (ω [.foldIn i, .seed 0]), [("z", ω [.foldIn i, .seed 0])]) := by
  simp [vmap, callPlate, withAxis, call, exec, gaussian, set]

/-- A hierarchical model: a global mean, and one observation per index of the plate `n` around it. -/
def hierarchical : Prog ℝ :=
  .split 1 0 2 0 (.split 2 0 2 1 (.draw 0 1 (fun w _ => w) (.tag "mu" 0
    (.plate 1 "n" 2 (.draw 3 0 (fun w e => e 0 + w) (.tag "x" 3 .done)) 3 .done))))

example : Meas hierarchical :=
  ⟨measurable_fst, ⟨((measurable_pi_apply 0).comp measurable_snd).add measurable_fst, trivial⟩, trivial⟩

example : axesOf hierarchical = ["n"] ∧ namesOf hierarchical = ["mu", "x"] := by
  simp [hierarchical, axesOf, namesOf]

end Verif.Plate
