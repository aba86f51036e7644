import Verif.Optix.Moments

namespace Verif.Optix

variable {ι : Type}

/-- Initialise on the first element of a history and call on all of it: the outputs and the final
variables. -/
def runFull (f : Fn ι) : List ((ι → ℝ) × (ι → ℝ)) → Except Err (List (ι → ℝ) × Vars ι)
  | [] => .ok ([], [])
  | (u, p) :: hist => do
    let vars ← f.init u p
    runFrom f vars ((u, p) :: hist)

/-- The final variables of a component over a history, total version. -/
def finalVars (f : Fn ι) : Vars ι → List ((ι → ℝ) × (ι → ℝ)) → Vars ι
  | v, [] => v
  | v, (u, p) :: hist => finalVars f (step f v u p).2 hist

theorem runFrom_final (P : Part ι) {v : Vars ι} (hv : P.Good v)
    (hist : List ((ι → ℝ) × (ι → ℝ))) :
    runFrom P.fn v hist = .ok (outs P.fn v hist, finalVars P.fn v hist) ∧
      P.Good (finalVars P.fn v hist) := by
  induction hist generalizing v with
  | nil => exact ⟨rfl, hv⟩
  | cons up hist ih =>
    obtain ⟨u, p⟩ := up
    have h := P.step_eq hv u p
    have h' := ih h.2
    refine ⟨?_, h'.2⟩
    simp only [runFrom, h.1, h'.1, bind, Except.bind, outs, finalVars, pure, Except.pure]

/-- Final variables of all components. -/
def finalAll (Ps : List (Part ι)) : List (Vars ι) → List ((ι → ℝ) × (ι → ℝ)) → List (Vars ι)
  | vs, [] => vs
  | vs, (u, p) :: hist => finalAll Ps (stepAll Ps vs u p).2 hist

theorem finalAll_cons (P : Part ι) (Ps : List (Part ι)) (v : Vars ι) (vs : List (Vars ι))
    (hist : List ((ι → ℝ) × (ι → ℝ))) :
    finalAll (P :: Ps) (v :: vs) hist
      = finalVars P.fn v hist ::
          finalAll Ps vs ((outs P.fn v hist).zip (hist.map Prod.snd)) := by
  induction hist generalizing v vs with
  | nil => rfl
  | cons up hist ih =>
    obtain ⟨u, p⟩ := up
    simp only [finalAll, finalVars, outs, List.map_cons, List.zip_cons_cons, stepAll]
    rw [ih]

theorem finalAll_nil (hist : List ((ι → ℝ) × (ι → ℝ))) :
    finalAll ([] : List (Part ι)) [] hist = [] := by
  induction hist with
  | nil => rfl
  | cons up hist ih => simp [finalAll, stepAll, ih]

theorem chain_runFrom_final (flag : Bool) (Ps : List (Part ι)) (hn : (Ps.map Part.name).Nodup)
    (hflag : flag = false ∨ ∀ P ∈ Ps, P.stateful = true) {vs : List (Vars ι)} (hg : AllGood Ps vs)
    (hist : List ((ι → ℝ) × (ι → ℝ))) :
    runFrom (chainNamed flag (fns Ps)) (encode Ps vs) hist
      = .ok (outsAll Ps vs hist, encode Ps (finalAll Ps vs hist)) := by
  induction hist generalizing vs with
  | nil => rfl
  | cons up hist ih =>
    obtain ⟨u, p⟩ := up
    have h := chain_callAndUpdate flag Ps hn hflag hg u p
    have h' := ih (stepAll_good hg u p)
    simp only [runFrom, h, h', bind, Except.bind, outsAll, finalAll, pure, Except.pure]

/-- One component of a chain, run over the whole stream `us` of its inputs: its outputs, and its
variables added under its name if it has any. -/
def component (ps : List (ι → ℝ)) (acc : List (ι → ℝ) × Vars ι) (f : String × Fn ι) :
    Except Err (List (ι → ℝ) × Vars ι) := do
  let r ← runFull f.2 (acc.1.zip ps)
  pure (r.1, if r.2.isEmpty then acc.2 else acc.2 ++ [(f.1, .mod r.2)])

theorem chain_full (flag : Bool) (Ps : List (Part ι)) (hn : (Ps.map Part.name).Nodup)
    (hflag : flag = false ∨ ∀ P ∈ Ps, P.stateful = true)
    (hist : List ((ι → ℝ) × (ι → ℝ))) :
    runFull (chainNamed flag (fns Ps)) hist
      = (fns Ps).foldlM (component (hist.map Prod.snd)) (hist.map Prod.fst, []) := by
  cases hist with
  | nil =>
    have : ∀ l : List (String × Fn ι), l.foldlM (m := Except Err)
        (component (([] : List ((ι → ℝ) × (ι → ℝ))).map Prod.snd))
        (([] : List ((ι → ℝ) × (ι → ℝ))).map Prod.fst, []) = .ok ([], []) := by
      intro l
      induction l with
      | nil => rfl
      | cons f l ih =>
        rw [List.foldlM_cons]
        exact ih
    rw [this]; rfl
  | cons up hist =>
    obtain ⟨u, p⟩ := up
    have h0 : (chainNamed flag (fns Ps)).init u p = .ok (encode Ps (initAll Ps u p)) :=
      chainInit_eq Ps hn [] (fun _ _ => rfl) u p
    simp only [runFull, h0, bind, Except.bind]
    rw [chain_runFrom_final flag Ps hn hflag (initAll_good Ps u p)]
    clear hflag h0
    generalize hps : ((u, p) :: hist).map Prod.snd = ps
    have hzip : (((u, p) :: hist).map Prod.fst).zip ps = (u, p) :: hist := by
      rw [← hps, List.zip_map']; simp
    generalize hus : ((u, p) :: hist).map Prod.fst = us
    rw [hus] at hzip
    have key : ∀ acc : Vars ι,
        Except.ok (outsAll Ps (initAll Ps u p) ((u, p) :: hist),
          acc ++ encode Ps (finalAll Ps (initAll Ps u p) ((u, p) :: hist)))
        = (fns Ps).foldlM (component ps) (us, acc) := by
      induction Ps generalizing u hist us with
      | nil =>
        intro acc
        rw [show initAll ([] : List (Part ι)) u p = [] from rfl, outsAll_nil, hus, finalAll_nil]
        simp [encode, fns, pure, Except.pure]
      | cons P Ps ih =>
        intro acc
        rw [List.map_cons, List.nodup_cons] at hn
        show _ = (component ps (us, acc) (P.name, P.fn) >>= fun acc =>
          (fns Ps).foldlM (component ps) acc)
        have hi := P.init_eq u p
        have hrun := runFrom_final P hi.2 ((u, p) :: hist)
        have hE := P.sound.empty _ hrun.2
        simp only [component, hzip, runFull, hi.1, hrun.1, bind, Except.bind, pure, Except.pure]
        show Except.ok (outsAll (P :: Ps) (initVars P.fn u p :: initAll Ps _ p) _,
          acc ++ encode (P :: Ps) (finalAll (P :: Ps) (initVars P.fn u p :: initAll Ps _ p) _)) = _
        rw [outsAll_cons, finalAll_cons, hps]
        have hlen : (outs P.fn (initVars P.fn u p) ((u, p) :: hist)).length = ps.length := by
          rw [outs_length, ← hps, List.length_map]
        have hform : (outs P.fn (initVars P.fn u p) ((u, p) :: hist)).zip ps
            = ((step P.fn (initVars P.fn u p) u p).1, p) ::
              (outs P.fn (step P.fn (initVars P.fn u p) u p).2 hist).zip (hist.map Prod.snd) := by
          rw [← hps]; rfl
        rw [hE]
        have := ih hn.2
          ((outs P.fn (step P.fn (initVars P.fn u p) u p).2 hist).zip (hist.map Prod.snd))
          (step P.fn (initVars P.fn u p) u p).1
          (by rw [← hform, List.map_snd_zip (by omega)])
          (outs P.fn (initVars P.fn u p) ((u, p) :: hist)) hform
          (by rw [← hform, List.map_fst_zip (by omega)])
          (if P.stateful then acc ++ [(P.name, .mod (finalVars P.fn (initVars P.fn u p) ((u, p) :: hist)))]
            else acc)
        rw [hform]
        cases hs : P.stateful
        · rw [hs] at this
          simp only [Bool.false_eq_true, if_false, Bool.not_false, if_true, encode, hs] at this ⊢
          exact this
        · rw [hs] at this
          simp only [if_true, Bool.not_true, Bool.false_eq_true, if_false, encode, hs] at this ⊢
          rw [← this]
          simp
    exact key []

/-- An update function that never raises: its initialisation succeeds, and so does every call from
any variables reached this way; and whether it has variables does not depend on its inputs. -/
def Total (f : Fn ι) (stateful : Bool) : Prop := ∃ Good, Sound f stateful Good

theorem total_pureFn (g : (ι → ℝ) → (ι → ℝ) → (ι → ℝ)) : Total (pureFn g) false :=
  ⟨fun v => v = [], ⟨fun _ _ => ⟨[], rfl, rfl⟩, by rintro _ u p rfl; exact ⟨_, _, rfl, rfl⟩,
    by rintro _ rfl; rfl⟩⟩

theorem total_trace (d : ℝ) (nes : Bool) : Total (trace (ι := ι) d nes) true :=
  ⟨fun v => ∃ t, v = [("trace", .arr t)], ⟨fun _ _ => ⟨_, rfl, _, rfl⟩,
    by rintro _ u p ⟨t, rfl⟩; exact ⟨_, _, trace_step .., _, rfl⟩, by rintro _ ⟨t, rfl⟩; rfl⟩⟩

theorem total_rms (d e : ℝ) : Total (scaleByRms (ι := ι) d e) true :=
  ⟨fun v => ∃ t, v = [("nu", .arr t)], ⟨fun _ _ => ⟨_, rfl, _, rfl⟩,
    by rintro _ u p ⟨t, rfl⟩; exact ⟨_, _, rms_step .., _, rfl⟩, by rintro _ ⟨t, rfl⟩; rfl⟩⟩

theorem total_stddev (d e : ℝ) : Total (scaleByStddev (ι := ι) d e) true :=
  ⟨fun v => ∃ m t, v = [("mu", .arr m), ("nu", .arr t)], ⟨fun _ _ => ⟨_, rfl, _, _, rfl⟩,
    by rintro _ u p ⟨m, t, rfl⟩; exact ⟨_, _, stddev_step .., _, _, rfl⟩,
    by rintro _ ⟨m, t, rfl⟩; rfl⟩⟩

theorem total_adam (b1 b2 e : ℝ) : Total (scaleByAdam (ι := ι) b1 b2 e) true :=
  ⟨fun v => ∃ c m t, v = [("count", .num c), ("mu", .arr m), ("nu", .arr t)],
    ⟨fun _ _ => ⟨_, rfl, _, _, _, rfl⟩,
    by rintro _ u p ⟨c, m, t, rfl⟩; exact ⟨_, _, adam_step .., _, _, _, rfl⟩,
    by rintro _ ⟨c, m, t, rfl⟩; rfl⟩⟩

theorem total_schedule (s : ℝ → ℝ) : Total (scaleBySchedule (ι := ι) s) true :=
  ⟨fun v => ∃ c, v = [("count", .num c)], ⟨fun _ _ => ⟨_, rfl, _, rfl⟩,
    by rintro _ u p ⟨t, rfl⟩; exact ⟨_, _, schedule_step .., _, rfl⟩, by rintro _ ⟨t, rfl⟩; rfl⟩⟩

theorem total_noise (draw : Nat → Nat × (ι → ℝ)) (eta gamma : ℝ) (seed : Nat) :
    Total (addNoise draw eta gamma seed) true :=
  ⟨fun v => ∃ c k, v = [("count", .num c), ("rng_key", .key k)], ⟨fun _ _ => ⟨_, rfl, _, _, rfl⟩,
    by rintro _ u p ⟨c, k, rfl⟩; exact ⟨_, _, noise_step .., _, _, rfl⟩,
    by rintro _ ⟨c, k, rfl⟩; rfl⟩⟩

theorem total_every (K : ℕ) (hK : 1 ≤ K) : Total (applyEvery (ι := ι) K) true :=
  ⟨fun v => ∃ (c : ℕ) (t : ι → ℝ), v = [("count", .num c), ("grad_acc", .arr t)],
    ⟨fun _ _ => ⟨_, rfl, 0, _, by simp; rfl⟩,
    by rintro _ u p ⟨c, t, rfl⟩; exact ⟨_, _, every_step K c hK .., _, _, rfl⟩,
    by rintro _ ⟨c, t, rfl⟩; rfl⟩⟩

/-- Components with their names, from functions that never raise. -/
theorem exists_parts (l : List (String × Fn ι)) (st : String × Fn ι → Bool)
    (h : ∀ f ∈ l, Total f.2 (st f)) :
    ∃ Ps : List (Part ι), fns Ps = l ∧ Ps.map Part.stateful = l.map st := by
  induction l with
  | nil => exact ⟨[], rfl, rfl⟩
  | cons f l ih =>
    obtain ⟨Ps, hP, hs⟩ := ih fun g hg => h g (List.mem_cons_of_mem _ hg)
    obtain ⟨Good, hG⟩ := h f (List.mem_cons_self ..)
    refine ⟨⟨f.1, f.2, _, Good, hG⟩ :: Ps, ?_, ?_⟩
    · simp only [fns, List.map_cons] at hP ⊢
      rw [hP]
    · simp only [List.map_cons, hs]

theorem names_fns (Ps : List (Part ι)) : Ps.map Part.name = (fns Ps).map Prod.fst := by
  simp [fns, Function.comp_def]

theorem update_name_inj {i j : ℕ} (h : s!"update_{i}" = s!"update_{j}") : i = j := by
  have h1 : "update_" ++ i.repr = "update_" ++ j.repr := by simpa [toString] using h
  have h2 : i.repr = j.repr := by
    have := congrArg String.toList h1
    simp only [String.toList_append] at this
    exact String.toList_inj.1 (List.append_cancel_left this)
  have h3 : Nat.toDigits 10 i = Nat.toDigits 10 j := by
    have := congrArg String.toList h2
    simpa [Nat.repr] using this
  rw [← Nat.ofDigitChars_toDigits (b := 10) (n := i) (by omega) (by omega), h3,
    Nat.ofDigitChars_toDigits (by omega) (by omega)]

/-- The named functions of `chain`. -/
def named (args : List (Fn ι)) (kwargs : List (String × Fn ι)) : List (String × Fn ι) :=
  (args.zipIdx.map fun fi => (s!"update_{fi.2}", fi.1)) ++ kwargs

theorem named_nodup (args : List (Fn ι)) (kwargs : List (String × Fn ι))
    (hk : (kwargs.map Prod.fst).Nodup)
    (hd : ∀ k ∈ kwargs.map Prod.fst, ∀ i < args.length, k ≠ s!"update_{i}") :
    ((named args kwargs).map Prod.fst).Nodup := by
  rw [named, List.map_append, List.nodup_append]
  have e : (args.zipIdx.map fun fi => (s!"update_{fi.2}", fi.1)).map Prod.fst
      = (List.range args.length).map fun i => s!"update_{i}" := by
    rw [List.map_map, List.zipIdx_eq_zip_range', ← List.range_eq_range']
    rw [show (Prod.fst ∘ fun fi : Fn ι × ℕ => (s!"update_{fi.2}", fi.1))
      = (fun i => s!"update_{i}") ∘ Prod.snd from rfl]
    rw [← List.map_map, List.map_snd_zip (by simp)]
  rw [e]
  refine ⟨?_, hk, ?_⟩
  · exact List.Nodup.map (fun i j h => update_name_inj h) List.nodup_range
  · intro a ha b hb hab
    simp only [List.mem_map, List.mem_range] at ha
    obtain ⟨i, hi, rfl⟩ := ha
    exact hd b hb i hi hab.symm

end Verif.Optix
