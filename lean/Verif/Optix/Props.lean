import Verif.Optix.Compose

/-!
# C39, C40, C41, C53: gradient transformations

Statements about `oryx.experimental.optimizers.optix`. A history is a list of pairs
(gradient, parameters); `runFull f hist` initialises `f` on the first pair and calls it on every
pair, keeping its state; it gives the outputs and the final state.
-/

namespace Verif.Optix

open Finset

variable {ι : Type}

/-! ## C39 -/

/-- **C39.** Over any history, `chain(*args, **kwargs)` of functions that never raise is the pipeline
of its components: each component is initialised and run, on its own, over the stream of outputs of
the one before it, and the chain's variables are the components' own final variables under their
names. Either no function is stateless (`recordEmpty = true`) or harvest ignores modules without
variables (`recordEmpty = false`): with `recordEmpty = true` and a stateless component the chain
raises (`chain_stateless_raises`), hence `_partial`. -/
theorem chain_pipeline_partial (recordEmpty : Bool) (args : List (Fn ι)) (kwargs : List (String × Fn ι))
    (st : String × Fn ι → Bool)
    (htotal : ∀ f ∈ named args kwargs, Total f.2 (st f))
    (hst : recordEmpty = false ∨ ∀ f ∈ named args kwargs, st f = true)
    (hkeys : (kwargs.map Prod.fst).Nodup)
    (hfresh : ∀ k ∈ kwargs.map Prod.fst, ∀ i < args.length, k ≠ s!"update_{i}")
    (hist : List ((ι → ℝ) × (ι → ℝ))) :
    runFull (chain recordEmpty args kwargs) hist
      = (named args kwargs).foldlM (component (hist.map Prod.snd)) (hist.map Prod.fst, []) := by
  obtain ⟨Ps, hP, hs⟩ := exists_parts (named args kwargs) st htotal
  have hn : (Ps.map Part.name).Nodup := by
    rw [names_fns, hP]; exact named_nodup args kwargs hkeys hfresh
  show runFull (chainNamed recordEmpty (named args kwargs)) hist = _
  rw [← hP]
  refine chain_full recordEmpty Ps hn ?_ hist
  refine hst.imp id fun h P hPm => ?_
  have h1 : P.stateful ∈ Ps.map Part.stateful := List.mem_map.2 ⟨P, hPm, rfl⟩
  rw [hs, List.mem_map] at h1
  obtain ⟨f, hf, he⟩ := h1
  rw [← he]; exact h f hf

/-- A chain of functions that never raise never raises. -/
theorem chain_total (recordEmpty : Bool) (args : List (Fn ι)) (kwargs : List (String × Fn ι))
    (st : String × Fn ι → Bool)
    (htotal : ∀ f ∈ named args kwargs, Total f.2 (st f))
    (hst : recordEmpty = false ∨ ∀ f ∈ named args kwargs, st f = true)
    (hkeys : (kwargs.map Prod.fst).Nodup)
    (hfresh : ∀ k ∈ kwargs.map Prod.fst, ∀ i < args.length, k ≠ s!"update_{i}") :
    Total (chain recordEmpty args kwargs) ((named args kwargs).any st) := by
  obtain ⟨Ps, hP, hs⟩ := exists_parts (named args kwargs) st htotal
  have hn : (Ps.map Part.name).Nodup := by
    rw [names_fns, hP]; exact named_nodup args kwargs hkeys hfresh
  have hst' : recordEmpty = false ∨ ∀ P ∈ Ps, P.stateful = true := by
    refine hst.imp id fun h P hPm => ?_
    have h1 : P.stateful ∈ Ps.map Part.stateful := List.mem_map.2 ⟨P, hPm, rfl⟩
    rw [hs, List.mem_map] at h1
    obtain ⟨f, hf, he⟩ := h1
    rw [← he]; exact h f hf
  have h := chain_sound recordEmpty Ps hn hst'
  have e : (Ps.any fun P => P.stateful) = (named args kwargs).any st := by
    have h1 : (Ps.any fun P => P.stateful) = (Ps.map Part.stateful).any id := by
      simp [List.any_map, Function.comp_def]
    rw [h1, hs]; simp [List.any_map, Function.comp_def]
  rw [← e]
  show Total (chainNamed recordEmpty (named args kwargs)) _
  rw [← hP]
  exact ⟨_, h⟩

/-- The outputs of a run, without the state. -/
def outputs (f : Fn ι) (hist : List ((ι → ℝ) × (ι → ℝ))) : Except Err (List (ι → ℝ)) :=
  (runFull f hist).map Prod.fst

theorem foldlM_component_fst (ps : List (ι → ℝ)) (l : List (String × Fn ι)) (us : List (ι → ℝ))
    (acc : Vars ι) :
    (l.foldlM (component ps) (us, acc)).map Prod.fst
      = (l.map Prod.snd).foldlM (fun us f => outputs f (us.zip ps)) us := by
  induction l generalizing us acc with
  | nil => rfl
  | cons f l ih =>
    rw [List.foldlM_cons, List.map_cons, List.foldlM_cons]
    simp only [component, outputs, bind, Except.bind]
    cases hr : runFull f.2 (us.zip ps) with
    | error e => rfl
    | ok r =>
      simp only [pure, Except.pure, Except.map]
      exact ih _ _

/-- **C39**, outputs. The outputs of a chain are those of its components, one after the other, each
run on its own over the whole history; the names do not matter. -/
theorem chain_outputs_partial (args : List (Fn ι)) (kwargs : List (String × Fn ι))
    (htotal : ∀ f ∈ args ++ kwargs.map Prod.snd, ∃ st, Total f st)
    (hkeys : (kwargs.map Prod.fst).Nodup)
    (hfresh : ∀ k ∈ kwargs.map Prod.fst, ∀ i < args.length, k ≠ s!"update_{i}")
    (hist : List ((ι → ℝ) × (ι → ℝ))) :
    outputs (chain false args kwargs) hist
      = (args ++ kwargs.map Prod.snd).foldlM
          (fun us f => outputs f (us.zip (hist.map Prod.snd))) (hist.map Prod.fst) := by
  classical
  have hsnd : (named args kwargs).map Prod.snd = args ++ kwargs.map Prod.snd := by
    rw [named, List.map_append, List.map_map]
    congr 1
    rw [show (Prod.snd ∘ fun fi : Fn ι × ℕ => (s!"update_{fi.2}", fi.1)) = Prod.fst from rfl]
    exact List.zipIdx_map_fst ..
  have htot : ∀ f ∈ named args kwargs,
      Total f.2 (if Total f.2 true then true else false) := by
    intro f hf
    have : f.2 ∈ args ++ kwargs.map Prod.snd := by
      rw [← hsnd]; exact List.mem_map.2 ⟨f, hf, rfl⟩
    obtain ⟨st, hs⟩ := htotal f.2 this
    split_ifs with h
    · exact h
    · cases st
      · exact hs
      · exact (h hs).elim
  rw [outputs, chain_pipeline_partial false args kwargs _ htot (Or.inl rfl) hkeys hfresh,
    foldlM_component_fst, hsnd]

theorem total_chain_outputs (args : List (Fn ι)) (h : ∀ f ∈ args, ∃ st, Total f st) :
    ∃ st, Total (chain false args) st := by
  classical
  refine ⟨_, chain_total false args [] (fun f => if Total f.2 true then true else false) ?_
    (Or.inl rfl) List.nodup_nil (by simp)⟩
  intro f hf
  simp only [named, List.append_nil, List.mem_map] at hf
  obtain ⟨⟨g, i⟩, hg, rfl⟩ := hf
  obtain ⟨st, hs⟩ := h g (List.fst_mem_of_mem_zipIdx hg)
  split_ifs with h'
  · exact h'
  · cases st
    · exact hs
    · exact (h' hs).elim

theorem chain_args (args : List (Fn ι)) (htotal : ∀ f ∈ args, ∃ st, Total f st)
    (hist : List ((ι → ℝ) × (ι → ℝ))) :
    outputs (chain false args) hist
      = args.foldlM (fun us f => outputs f (us.zip (hist.map Prod.snd))) (hist.map Prod.fst) := by
  have := chain_outputs_partial args [] (by simpa using htotal) List.nodup_nil (by simp) hist
  simpa using this

/-- Outputs of a function that never raises: as many as inputs. -/
theorem outputs_ok {f : Fn ι} (h : ∃ st, Total f st) (hist : List ((ι → ℝ) × (ι → ℝ))) :
    ∃ os, outputs f hist = .ok os ∧ os.length = hist.length := by
  obtain ⟨st, Good, hs⟩ := h
  let P : Part ι := ⟨"", f, st, Good, hs⟩
  cases hist with
  | nil => exact ⟨[], rfl, rfl⟩
  | cons up hist =>
    obtain ⟨u, p⟩ := up
    have hi := P.init_eq u p
    have h' := (runFrom_final P hi.2 ((u, p) :: hist)).1
    refine ⟨outs f (initVars f u p) ((u, p) :: hist), ?_, outs_length _ _ _⟩
    show (runFull P.fn _).map _ = _
    simp only [runFull, hi.1, h', bind, Except.bind, Except.map]
    rfl

theorem zip_self (hist : List ((ι → ℝ) × (ι → ℝ))) :
    (hist.map Prod.fst).zip (hist.map Prod.snd) = hist := by
  rw [List.zip_map']; simp

/-- **C39.** `chain()` is the identity. -/
theorem chain_nil (hist : List ((ι → ℝ) × (ι → ℝ))) :
    outputs (chain false []) hist = .ok (hist.map Prod.fst) := by
  rw [chain_args [] (by simp)]; rfl

/-- **C39.** A chain of one function is that function. -/
theorem chain_singleton (f : Fn ι) (hf : ∃ st, Total f st) (hist : List ((ι → ℝ) × (ι → ℝ))) :
    outputs (chain false [f]) hist = outputs f hist := by
  rw [chain_args [f] (by simpa using hf), List.foldlM_cons, zip_self]
  cases outputs f hist <;> rfl

/-- **C39.** Nested chains flatten: `chain` is associative. -/
theorem chain_assoc (as bs cs : List (Fn ι)) (ha : ∀ f ∈ as, ∃ st, Total f st)
    (hb : ∀ f ∈ bs, ∃ st, Total f st) (hc : ∀ f ∈ cs, ∃ st, Total f st)
    (hist : List ((ι → ℝ) × (ι → ℝ))) :
    outputs (chain false (as ++ chain false bs :: cs)) hist
      = outputs (chain false (as ++ bs ++ cs)) hist := by
  have hB := total_chain_outputs bs hb
  rw [chain_args, chain_args]
  · rw [List.foldlM_append, List.foldlM_append, List.foldlM_append, bind_assoc]
    have hlen : ∀ (l : List (Fn ι)) (_ : ∀ f ∈ l, ∃ st, Total f st) (us : List (ι → ℝ)),
        us.length = hist.length → ∃ os, l.foldlM (m := Except Err)
          (fun us f => outputs f (us.zip (hist.map Prod.snd))) us = .ok os ∧
            os.length = hist.length := by
      intro l
      induction l with
      | nil => intro _ us hu; exact ⟨us, rfl, hu⟩
      | cons f l ih =>
        intro hl us hu
        obtain ⟨os, ho, hlen⟩ := outputs_ok (hl f (List.mem_cons_self ..))
          (us.zip (hist.map Prod.snd))
        rw [List.foldlM_cons, ho]
        have : os.length = hist.length := by rw [hlen]; simp [hu]
        exact ih (fun g hg => hl g (List.mem_cons_of_mem _ hg)) os this
    obtain ⟨os, ho, hol⟩ := hlen as ha (hist.map Prod.fst) (by simp)
    rw [ho]
    simp only [bind, Except.bind]
    rw [List.foldlM_cons, chain_args bs hb, List.map_fst_zip (by simp [hol]),
      List.map_snd_zip (by simp [hol])]
    rfl
  · intro f hf
    simp only [List.mem_append] at hf
    rcases hf with (h | h) | h
    · exact ha f h
    · exact hb f h
    · exact hc f h
  · intro f hf
    simp only [List.mem_append, List.mem_cons] at hf
    rcases hf with h | h | h
    · exact ha f h
    · exact h ▸ hB
    · exact hc f h

/-- **C39** with `harvest` as it is: for functions that all have state, the outputs of a chain are those of
its components, one after the other, each run on its own over the whole history. -/
theorem chain_outputs_stateful (recordEmpty : Bool) (args : List (Fn ι)) (kwargs : List (String × Fn ι))
    (htotal : ∀ f ∈ args ++ kwargs.map Prod.snd, Total f true)
    (hkeys : (kwargs.map Prod.fst).Nodup)
    (hfresh : ∀ k ∈ kwargs.map Prod.fst, ∀ i < args.length, k ≠ s!"update_{i}")
    (hist : List ((ι → ℝ) × (ι → ℝ))) :
    outputs (chain recordEmpty args kwargs) hist
      = (args ++ kwargs.map Prod.snd).foldlM
          (fun us f => outputs f (us.zip (hist.map Prod.snd))) (hist.map Prod.fst) := by
  have hsnd : (named args kwargs).map Prod.snd = args ++ kwargs.map Prod.snd := by
    rw [named, List.map_append, List.map_map]
    congr 1
    rw [show (Prod.snd ∘ fun fi : Fn ι × ℕ => (s!"update_{fi.2}", fi.1)) = Prod.fst from rfl]
    exact List.zipIdx_map_fst ..
  have htot : ∀ f ∈ named args kwargs, Total f.2 ((fun _ => true) f) := fun f hf =>
    htotal f.2 (hsnd ▸ List.mem_map.2 ⟨f, hf, rfl⟩)
  rw [outputs, chain_pipeline_partial recordEmpty args kwargs _ htot (Or.inr fun _ _ => rfl) hkeys hfresh,
    foldlM_component_fst, hsnd]

/-- **C39** with `harvest` as it is: a nested chain of functions with state can be flattened. -/
theorem chain_assoc_stateful (recordEmpty : Bool) (as bs cs : List (Fn ι)) (hne : bs ≠ [])
    (ha : ∀ f ∈ as, Total f true) (hb : ∀ f ∈ bs, Total f true) (hc : ∀ f ∈ cs, Total f true)
    (hist : List ((ι → ℝ) × (ι → ℝ))) :
    outputs (chain recordEmpty (as ++ chain recordEmpty bs :: cs)) hist
      = outputs (chain recordEmpty (as ++ bs ++ cs)) hist := by
  have key : ∀ (l : List (Fn ι)), (∀ f ∈ l, Total f true) → ∀ (r : Bool) h,
      outputs (chain r l) h
        = l.foldlM (fun us f => outputs f (us.zip (h.map Prod.snd))) (h.map Prod.fst) := by
    intro l hl r h
    have := chain_outputs_stateful r l [] (by simpa using hl) List.nodup_nil (by simp) h
    simpa using this
  have hB : ∀ r, Total (chain r bs) true := by
    intro r
    have h := chain_total r bs [] (fun _ => true) (fun f hf => by
      simp only [named, List.append_nil, List.mem_map] at hf
      obtain ⟨⟨g, i⟩, hg, rfl⟩ := hf
      exact hb g (List.fst_mem_of_mem_zipIdx hg)) (Or.inr fun _ _ => rfl) List.nodup_nil (by simp)
    have e : (named bs []).any (fun _ => true) = true := by
      cases bs with
      | nil => exact absurd rfl hne
      | cons b bs => simp [named]
    rw [e] at h
    exact h
  have h1 : ∀ r, ∀ f ∈ as ++ chain r bs :: cs, Total f true := by
    intro r f hf
    simp only [List.mem_append, List.mem_cons] at hf
    rcases hf with h | rfl | h
    · exact ha f h
    · exact hB r
    · exact hc f h
  have h2 : ∀ f ∈ as ++ bs ++ cs, Total f true := by
    intro f hf
    simp only [List.mem_append] at hf
    rcases hf with (h | h) | h
    · exact ha f h
    · exact hb f h
    · exact hc f h
  have h3 := chain_assoc as bs cs (fun f hf => ⟨_, ha f hf⟩) (fun f hf => ⟨_, hb f hf⟩)
    (fun f hf => ⟨_, hc f hf⟩) hist
  have e : ∀ h, outputs (chain recordEmpty bs) h = outputs (chain false bs) h := fun h => by
    rw [key bs hb recordEmpty, key bs hb false]
  rw [key _ (h1 false) false, key _ h2 false] at h3
  rw [key _ (h1 recordEmpty) recordEmpty, key _ h2 recordEmpty, ← h3]
  simp only [List.foldlM_append, List.foldlM_cons, e]

/-- The first call of a chain in which a function without `init_key` follows one stateful function. -/
theorem chain_stateless_first_call (f : Fn ι) (hf : Total f true)
    (g : (ι → ℝ) → (ι → ℝ) → (ι → ℝ)) (u p : ι → ℝ) :
    ∃ vars, (chain true [f, pureFn g]).init u p = .ok vars
      ∧ callAndUpdate (chain true [f, pureFn g]) vars u p = .error (.undeclared "update_1") := by
  obtain ⟨Good, hs⟩ := hf
  let P : Part ι := ⟨"update_0", f, true, Good, hs⟩
  have hi := P.init_eq u p
  have h1 := P.step_eq hi.2 u p
  have hE := P.sound.empty _ hi.2
  have hE1 := P.sound.empty _ h1.2
  have e : named [f, pureFn g] [] = [("update_0", f), ("update_1", pureFn g)] := by
    simp only [named, List.zipIdx_cons, List.zipIdx_nil, List.map_cons, List.map_nil,
      List.append_nil]
    rw [show s!"update_{0}" = "update_0" by decide +kernel,
      show s!"update_{0 + 1}" = "update_1" by decide +kernel]
  have hinit : (chain true [f, pureFn g]).init u p
      = .ok [("update_0", .mod (initVars f u p))] := by
    show chainInit (named [f, pureFn g] []) [] u p = _
    rw [e]
    simp only [chainInit, bind, Except.bind]
    rw [show f.init u p = _ from hi.1]
    simp only []
    rw [show (initVars f u p).isEmpty = _ from hE, show callAndUpdate f (initVars f u p) u p = _ from h1.1]
    simp [P, pure, Except.pure, pureFn, callAndUpdate, overwrite, bind, Except.bind, List.lookup]
  have hrun : (chain true [f, pureFn g]).run [("update_0", .mod (initVars f u p))] u p
      = .ok (g (step f (initVars f u p) u p).1 p,
          [("update_0", .mod (step f (initVars f u p) u p).2), ("update_1", .mod [])]) := by
    show chainRun true (named [f, pureFn g] []) _ [] u p = _
    rw [e]
    simp only [chainRun, bind, Except.bind]
    rw [show f.init u p = _ from hi.1]
    simp only []
    rw [show (initVars f u p).isEmpty = _ from hE]
    simp only [P, Bool.not_true, Bool.false_eq_true, if_false, List.lookup, beq_self_eq_true]
    rw [show callAndUpdate f (initVars f u p) u p = _ from h1.1]
    simp only []
    simp [P, pure, Except.pure, pureFn, callAndUpdate, overwrite, bind, Except.bind]
  refine ⟨_, hinit, ?_⟩
  simp only [bind, Except.bind, callAndUpdate, hrun]
  simp [List.lookup, throw, throwThe, MonadExceptOf.throw]

/-- **C39.** What a call does with the state of a transformation: the variables are the same; one that the transformation
assigns has the assigned value, and one that it does not assign keeps its value. -/
theorem call_keeps_variables (f : Fn ι) (vars : Vars ι) (u p u' : ι → ℝ) (vars' assigns : Vars ι)
    (h : callAndUpdate f vars u p = .ok (u', vars')) (hf : f.run vars u p = .ok (u', assigns)) :
    vars'.map Prod.fst = vars.map Prod.fst ∧
      (∀ k v, vars.lookup k ≠ none → assigns.lookup k = some v → vars'.lookup k = some v) ∧
      ∀ k, assigns.lookup k = none → vars'.lookup k = vars.lookup k := by
  have hv : vars' = overwrite vars assigns := by
    simp only [callAndUpdate, hf, bind, Except.bind] at h
    split at h
    · cases h
    · simp only [pure, Except.pure, Except.ok.injEq, Prod.mk.injEq] at h
      exact h.2.symm
  subst hv
  have key : ∀ (vs : Vars ι) k, (overwrite vs assigns).lookup k
      = (vs.lookup k).map fun v => (assigns.lookup k).getD v := by
    intro vs k
    induction vs with
    | nil => rfl
    | cons kv vs ih =>
      obtain ⟨n, v⟩ := kv
      simp only [overwrite, List.map_cons, List.lookup] at ih ⊢
      by_cases hk : k = n
      · subst hk
        simp
      · simp only [beq_false_of_ne hk]
        exact ih
  refine ⟨?_, ?_, ?_⟩
  · simp [overwrite, Function.comp_def]
  · intro k v hd ha
    rw [key, ha]
    cases hl : vars.lookup k with
    | none => exact absurd hl hd
    | some w => rfl
  · intro k ha
    rw [key, ha]
    cases vars.lookup k <;> rfl

/-- A transformation with two variables that assigns one of them. -/
example : ∃ vars' : Vars Unit,
    callAndUpdate ⟨true, fun _ _ => .ok [], fun _ u _ => .ok (u, [("n", .num 2)])⟩ [("m", .num 7), ("n", .num 1)] (fun _ => 0)
      (fun _ => 0) = .ok (fun _ => 0, vars') ∧ vars'.lookup "m" = some (.num 7) ∧ vars'.lookup "n" = some (.num 2) := by
  refine ⟨[("m", .num 7), ("n", .num 2)], ?_, by simp [List.lookup], by simp [List.lookup]⟩
  simp [callAndUpdate, bind, Except.bind, pure, Except.pure, overwrite, List.lookup]

/-- **C39**, where it fails: if harvest records modules without variables, then any chain in which a
function without `init_key` follows one stateful function raises at its first call. -/
theorem chain_stateless_raises (f : Fn ι) (hf : Total f true) (g : (ι → ℝ) → (ι → ℝ) → (ι → ℝ))
    (u p : ι → ℝ) (hist : List ((ι → ℝ) × (ι → ℝ))) :
    runFull (chain true [f, pureFn g]) ((u, p) :: hist) = .error (.undeclared "update_1") := by
  obtain ⟨vars, h1, h2⟩ := chain_stateless_first_call f hf g u p
  simp only [runFull, h1, runFrom, bind, Except.bind, h2]

/-- A positional function and a keyword of the same name collide. -/
theorem chain_duplicate_raises (f g : Fn ι) (hf : Total f true) (hg : Total g true)
    (u p : ι → ℝ) (hist : List ((ι → ℝ) × (ι → ℝ))) (flag : Bool) :
    runFull (chain flag [f] [("update_0", g)]) ((u, p) :: hist)
      = .error (.duplicate "update_0") := by
  obtain ⟨Gf, hsf⟩ := hf
  obtain ⟨Gg, hsg⟩ := hg
  let P : Part ι := ⟨"update_0", f, true, Gf, hsf⟩
  let Q : Part ι := ⟨"update_0", g, true, Gg, hsg⟩
  have hi := P.init_eq u p
  have h1 := P.step_eq hi.2 u p
  have hE := P.sound.empty _ hi.2
  have hi' := Q.init_eq (step f (initVars f u p) u p).1 p
  have hE' := Q.sound.empty _ hi'.2
  have hinit : (chain flag [f] [("update_0", g)]).init u p = .error (.duplicate "update_0") := by
    have e : named [f] [("update_0", g)] = [("update_0", f), ("update_0", g)] := by
      simp only [named, List.zipIdx_cons, List.zipIdx_nil, List.map_cons, List.map_nil,
        List.cons_append, List.nil_append]
      rw [show s!"update_{0}" = "update_0" by decide +kernel]
    show chainInit (named [f] [("update_0", g)]) [] u p = _
    rw [e]
    simp only [chainInit, bind, Except.bind]
    rw [show f.init u p = _ from hi.1]
    simp only []
    rw [show (initVars f u p).isEmpty = _ from hE, show callAndUpdate f (initVars f u p) u p = _ from h1.1]
    simp only [P, Bool.not_true, Bool.false_eq_true, if_false, List.lookup, pure, Except.pure,
      Option.isSome_none, List.nil_append, beq_self_eq_true]
    rw [show g.init _ p = _ from hi'.1]
    simp only []
    rw [show (initVars g _ p).isEmpty = _ from hE']
    simp [Q, throw, throwThe, MonadExceptOf.throw]
  simp only [runFull, hinit, bind, Except.bind]

example : ∃ hist : List ((Unit → ℝ) × (Unit → ℝ)), hist.length = 2 ∧
    (∀ f ∈ [trace 0.5 false, scale (-0.1), applyEvery (ι := Unit) 3], ∃ st, Total f st) :=
  ⟨[(fun _ => 1, fun _ => 0), (fun _ => 2, fun _ => 0)], rfl, by
    intro f hf
    simp only [List.mem_cons, List.not_mem_nil, or_false] at hf
    rcases hf with rfl | rfl | rfl
    · exact ⟨_, total_trace ..⟩
    · exact ⟨_, total_pureFn _⟩
    · exact ⟨_, total_every 3 (by norm_num)⟩⟩

/-! ## C41 -/

/-- **C41**, momentum. After `n` steps the trace is `Σ_{j<n} d^(n-1-j) g_j`; the output of step `k`
is the new trace, or with Nesterov momentum `g_k + d · (new trace)`. -/
theorem trace_closed_form (d : ℝ) (nesterov : Bool) (g p : ℕ → ι → ℝ) (n : ℕ) :
    fullRun (trace d nesterov) g p n
      = .ok ((List.range n).map fun k i =>
            if nesterov then g k i + d * ∑ j ∈ range (k + 1), d ^ (k - j) * g j i
            else ∑ j ∈ range (k + 1), d ^ (k - j) * g j i,
          [("trace", .arr fun i => ∑ j ∈ range n, d ^ (n - 1 - j) * g j i)]) :=
  fullRun_trace d nesterov g p n

/-- **C41**, RMS. The second moment after `n` steps is the moving average
`(1-d) Σ_{j<n} d^(n-1-j) g_j²`. -/
theorem rms_closed_form (d eps : ℝ) (g p : ℕ → ι → ℝ) (n : ℕ) :
    fullRun (scaleByRms d eps) g p n
      = .ok ((List.range n).map fun k i =>
            g k i / Real.sqrt ((1 - d) * ∑ j ∈ range (k + 1), d ^ (k - j) * g j i ^ 2 + eps),
          [("nu", .arr fun i => (1 - d) * ∑ j ∈ range n, d ^ (n - 1 - j) * g j i ^ 2)]) :=
  fullRun_rms d eps g p n

/-- **C41**, centered RMS. -/
theorem stddev_closed_form (d eps : ℝ) (g p : ℕ → ι → ℝ) (n : ℕ) :
    fullRun (scaleByStddev d eps) g p n
      = .ok ((List.range n).map fun k i =>
            g k i / Real.sqrt ((1 - d) * ∑ j ∈ range (k + 1), d ^ (k - j) * g j i ^ 2
              - ((1 - d) * ∑ j ∈ range (k + 1), d ^ (k - j) * g j i) ^ 2 + eps),
          [("mu", .arr fun i => (1 - d) * ∑ j ∈ range n, d ^ (n - 1 - j) * g j i),
            ("nu", .arr fun i => (1 - d) * ∑ j ∈ range n, d ^ (n - 1 - j) * g j i ^ 2)]) :=
  fullRun_stddev d eps g p n

/-- The estimated variance under the square root of `scale_by_stddev` is never negative for a decay
in `[0, 1]`. -/
theorem stddev_variance_nonneg {d : ℝ} (h0 : 0 ≤ d) (h1 : d ≤ 1) (x : ℕ → ℝ) (k : ℕ) :
    0 ≤ (1 - d) * ∑ j ∈ range (k + 1), d ^ (k - j) * x j ^ 2
      - ((1 - d) * ∑ j ∈ range (k + 1), d ^ (k - j) * x j) ^ 2 :=
  sub_nonneg.2 (ema_sq_le h0 h1 x (k + 1))

/-- **C41**, Adam: the moments are the moving averages, the outputs use them divided by
`1 - b^(k+1)` at step `k`. -/
theorem adam_closed_form (b1 b2 eps : ℝ) (g p : ℕ → ι → ℝ) (n : ℕ) :
    fullRun (scaleByAdam b1 b2 eps) g p n
      = .ok ((List.range n).map fun k i =>
            (1 - b1) * (∑ j ∈ range (k + 1), b1 ^ (k - j) * g j i) / (1 - b1 ^ (k + 1))
              / (Real.sqrt ((1 - b2) * (∑ j ∈ range (k + 1), b2 ^ (k - j) * g j i ^ 2)
                  / (1 - b2 ^ (k + 1))) + eps),
          [("count", .num n),
            ("mu", .arr fun i => (1 - b1) * ∑ j ∈ range n, b1 ^ (n - 1 - j) * g j i),
            ("nu", .arr fun i => (1 - b2) * ∑ j ∈ range n, b2 ^ (n - 1 - j) * g j i ^ 2)]) :=
  fullRun_adam b1 b2 eps g p n

/-- **C41**, Adam's bias correction is exact: on a constant gradient every output is
`g / (|g| + eps)`. -/
theorem adam_bias_correction (b1 b2 eps : ℝ) (h1 : 0 ≤ b1) (h1' : b1 < 1) (h2 : 0 ≤ b2)
    (h2' : b2 < 1) (c : ι → ℝ) (p : ℕ → ι → ℝ) (n : ℕ) :
    (fullRun (scaleByAdam b1 b2 eps) (fun _ => c) p n).map Prod.fst
      = .ok (List.replicate n fun i => c i / (|c i| + eps)) := by
  rw [fullRun_adam]
  simp only [Except.map]
  congr 1
  rw [List.eq_replicate_iff]
  refine ⟨by simp, ?_⟩
  intro o ho
  simp only [List.mem_map, List.mem_range] at ho
  obtain ⟨k, _, rfl⟩ := ho
  funext i
  rw [ema_const, ema_const]
  have e1 : 1 - b1 ^ (k + 1) ≠ 0 := by
    exact (sub_pos.2 (pow_lt_one₀ h1 h1' (Nat.succ_ne_zero k))).ne'
  have e2 : 1 - b2 ^ (k + 1) ≠ 0 := by
    exact (sub_pos.2 (pow_lt_one₀ h2 h2' (Nat.succ_ne_zero k))).ne'
  rw [mul_div_cancel_left₀ _ e1, mul_div_cancel_left₀ _ e2, Real.sqrt_sq_eq_abs]

/-- `scale_by_schedule` multiplies the `k`-th update by the step size for step `k`. -/
theorem schedule_closed_form (s : ℝ → ℝ) (g p : ℕ → ι → ℝ) (n : ℕ) :
    fullRun (scaleBySchedule s) g p n
      = .ok ((List.range n).map fun k i => s (k : ℕ) * g k i, [("count", .num n)]) :=
  fullRun_schedule s g p n

/-- `add_noise` adds to the `k`-th update noise of scale `eta / (1+k)^gamma`, drawn with a key split
off the previous one. -/
theorem noise_closed_form (draw : Nat → Nat × (ι → ℝ)) (eta gamma : ℝ) (seed : Nat)
    (g p : ℕ → ι → ℝ) (n : ℕ) :
    fullRun (addNoise draw eta gamma seed) g p n
      = .ok ((List.range n).map fun k i =>
            g k i + eta / (1 + (k : ℝ)) ^ gamma
              * (draw ((fun key => (draw key).1)^[k] seed)).2 i,
          [("count", .num n), ("rng_key", .key ((fun key => (draw key).1)^[n] seed))]) := by
  have h : ∀ k, noiseKey draw seed k = (fun key => (draw key).1)^[k] seed := by
    intro k
    induction k with
    | zero => rfl
    | succ k ih => rw [Function.iterate_succ_apply', ← ih]; rfl
  rw [fullRun_noise]
  simp only [h]

/-- **C41**, `apply_every(K)`: step `k` emits the sum of the last `K` gradients if `K` divides
`k + 1`, and zero otherwise. -/
theorem apply_every_closed_form (K : ℕ) (hK : 1 ≤ K) (g p : ℕ → ι → ℝ) (n : ℕ) :
    (fullRun (applyEvery K) g p n).map Prod.fst
      = .ok ((List.range n).map fun k i =>
          if (k + 1) % K = 0 then ∑ j ∈ Ico (k + 1 - K) (k + 1), g j i else 0) := by
  rw [fullRun_every K hK]; rfl

/-- No gradient is lost or counted twice: after `q` windows the emitted updates add up to the
gradients. -/
theorem apply_every_total (K : ℕ) (hK : 1 ≤ K) (x : ℕ → ℝ) (q : ℕ) :
    ∑ k ∈ range (q * K), (if (k + 1) % K = 0 then ∑ j ∈ Ico (k + 1 - K) (k + 1), x j else 0)
      = ∑ j ∈ range (q * K), x j := by
  induction q with
  | zero => simp
  | succ q ih =>
    rw [Nat.succ_mul, sum_range_add, ih, sum_range_add]
    congr 1
    obtain ⟨m, rfl⟩ : ∃ m, K = m + 1 := ⟨K - 1, by omega⟩
    rw [sum_range_succ, sum_eq_zero]
    · have : (q * (m + 1) + m + 1) % (m + 1) = 0 := by
        rw [Nat.add_assoc, Nat.add_mod]; simp
      rw [if_pos this, zero_add, sum_Ico_eq_sum_range]
      have e : q * (m + 1) + m + 1 - (m + 1) = q * (m + 1) := by omega
      rw [e]
      have e2 : q * (m + 1) + m + 1 - q * (m + 1) = m + 1 := by omega
      rw [e2]
    · intro k hk
      have hk := mem_range.1 hk
      have : (q * (m + 1) + k + 1) % (m + 1) = k + 1 := by
        rw [Nat.add_assoc, Nat.mul_add_mod', Nat.mod_eq_of_lt (by omega)]
      rw [if_neg (by omega)]

example : (fullRun (applyEvery (ι := Unit) 3) (fun k _ => k) (fun _ _ => 0) 6).map Prod.fst
    = .ok [fun _ => 0, fun _ => 0, fun _ => 3, fun _ => 0, fun _ => 0, fun _ => 12] := by
  rw [apply_every_closed_form 3 (by norm_num)]
  norm_num [List.range_succ, sum_Ico_succ_top]

/-! ## C40 -/

/-- **C40.** `clip_by_global_norm(m)` gives updates of global norm at most `m`. -/
theorem clip_by_global_norm_le [Fintype ι] {m : ℝ} (hm : 0 < m) (u : ι → ℝ) :
    Real.sqrt (∑ i, clipByGlobalNormMap m u i ^ 2) ≤ m := by
  unfold clipByGlobalNormMap
  by_cases h : globalNorm u < m
  · simp only [h, if_true]; exact le_of_lt h
  · simp only [h, if_false]
    have hpos : 0 < globalNorm u := lt_of_lt_of_le hm (not_lt.1 h)
    have : ∑ i, (u i * (m / globalNorm u)) ^ 2 = m ^ 2 := by
      simp only [mul_pow]
      rw [← sum_mul, div_pow, globalNorm, Real.sq_sqrt (sum_nonneg fun i _ => sq_nonneg _)]
      have : (∑ i, u i ^ 2) ≠ 0 := by
        intro e; rw [globalNorm, e, Real.sqrt_zero] at hpos; exact lt_irrefl _ hpos
      field_simp
    rw [this, Real.sqrt_sq hm.le]

/-- **C40.** The norm of the clipped updates is exactly the smaller of their norm and `m`. -/
theorem clip_by_global_norm_eq [Fintype ι] {m : ℝ} (hm : 0 < m) (u : ι → ℝ) :
    Real.sqrt (∑ i, clipByGlobalNormMap m u i ^ 2) = min (Real.sqrt (∑ i, u i ^ 2)) m := by
  unfold clipByGlobalNormMap
  by_cases h : globalNorm u < m
  · simp only [h, if_true]
    exact (min_eq_left (le_of_lt h)).symm
  · simp only [h, if_false]
    have hpos : 0 < globalNorm u := lt_of_lt_of_le hm (not_lt.1 h)
    have : ∑ i, (u i * (m / globalNorm u)) ^ 2 = m ^ 2 := by
      simp only [mul_pow]
      rw [← sum_mul, div_pow, globalNorm, Real.sq_sqrt (sum_nonneg fun i _ => sq_nonneg _)]
      have : (∑ i, u i ^ 2) ≠ 0 := by
        intro e; rw [globalNorm, e, Real.sqrt_zero] at hpos; exact lt_irrefl _ hpos
      field_simp
    rw [this, Real.sqrt_sq hm.le]
    exact (min_eq_right (not_lt.1 h)).symm

/-- **C40.** Updates of smaller norm are unchanged. -/
theorem clip_by_global_norm_id [Fintype ι] {m : ℝ} (u : ι → ℝ)
    (h : Real.sqrt (∑ i, u i ^ 2) < m) : clipByGlobalNormMap m u = u := by
  unfold clipByGlobalNormMap globalNorm
  simp only [h, if_true]

/-- The direction is kept: the result is a nonnegative multiple of the updates. -/
theorem clip_by_global_norm_direction [Fintype ι] {m : ℝ} (hm : 0 < m) (u : ι → ℝ) :
    ∃ c, 0 ≤ c ∧ c ≤ 1 ∧ clipByGlobalNormMap m u = fun i => c * u i := by
  by_cases h : globalNorm u < m
  · exact ⟨1, zero_le_one, le_refl _, by funext i; simp [clipByGlobalNormMap, h]⟩
  · have hpos : 0 < globalNorm u := lt_of_lt_of_le hm (not_lt.1 h)
    refine ⟨m / globalNorm u, by positivity, (div_le_one hpos).2 (not_lt.1 h), ?_⟩
    funext i
    simp [clipByGlobalNormMap, h, mul_comm]

/-- **C40.** `clip_by_global_norm(m)` as a gradient transformation: for every history of gradients it returns, and each
update has the smaller of the norm of the gradient and `m` as its norm and is the gradient if that is smaller. -/
theorem clip_by_global_norm_history [Fintype ι] {m : ℝ} (hm : 0 < m) (hist : List ((ι → ℝ) × (ι → ℝ))) :
    ∃ outs, runHist (clipByGlobalNorm m) hist = .ok outs ∧
      List.Forall₂ (fun g o => Real.sqrt (∑ i, o i ^ 2) = min (Real.sqrt (∑ i, g.1 i ^ 2)) m ∧
        (Real.sqrt (∑ i, g.1 i ^ 2) < m → o = g.1)) hist outs := by
  have key : ∀ hist : List ((ι → ℝ) × (ι → ℝ)), runFrom (clipByGlobalNorm m) [] hist =
      .ok (hist.map fun g => clipByGlobalNormMap m g.1, []) := by
    intro hist
    induction hist with
    | nil => rfl
    | cons g hist ih =>
      obtain ⟨u, p⟩ := g
      have h1 : callAndUpdate (clipByGlobalNorm m) [] u p = .ok (clipByGlobalNormMap m u, []) := rfl
      simp only [runFrom, h1, bind, Except.bind, ih, pure, Except.pure, List.map_cons]
  refine ⟨hist.map fun g => clipByGlobalNormMap m g.1, ?_, ?_⟩
  · cases hist with
    | nil => rfl
    | cons g hist =>
      obtain ⟨u, p⟩ := g
      have h0 : (clipByGlobalNorm m).init u p = .ok [] := rfl
      simp only [runHist, h0, bind, Except.bind, key, pure, Except.pure]
  · induction hist with
    | nil => exact .nil
    | cons g hist ih => exact .cons ⟨clip_by_global_norm_eq hm g.1, clip_by_global_norm_id g.1⟩ ih

/-- **C40**, `clip`. When the updates are a single array, every entry of the result is in
`[-d, d]` and entries already there are unchanged. The rest of the property fails: for updates that
are a container `clip` raises (`clip_container_raises`). -/
theorem clip_bounds_partial {d : ℝ} (hd : 0 ≤ d) (a : List ℝ) :
    ∃ b, clipTree d (.leaf a) = some (.leaf b) ∧ b.length = a.length ∧
      (∀ x ∈ b, -d ≤ x ∧ x ≤ d) ∧ ((∀ x ∈ a, -d ≤ x ∧ x ≤ d) → b = a) := by
  refine ⟨clipArr d a, rfl, by simp [clipArr], ?_, ?_⟩
  · intro x hx
    simp only [clipArr, List.mem_map] at hx
    obtain ⟨y, _, rfl⟩ := hx
    exact ⟨le_min (le_max_right _ _) (by linarith), min_le_right _ _⟩
  · intro h
    unfold clipArr
    conv_rhs => rw [← List.map_id a]
    refine List.map_congr_left fun x hx => ?_
    rw [max_eq_left (h x hx).1, min_eq_left (h x hx).2]; rfl

mutual
/-- The tree has an array in it. -/
def hasLeaf : Tree → Prop
  | .leaf _ => True
  | .node kids => anyLeaf kids
/-- Some tree of the list has an array in it. -/
def anyLeaf : List Tree → Prop
  | [] => False
  | t :: ts => hasLeaf t ∨ anyLeaf ts
end

mutual
theorem treeMapM_none : ∀ t : Tree, hasLeaf t → treeMapM (fun _ => none) t = none
  | .leaf _, _ => rfl
  | .node kids, h => by rw [treeMapM, treeMapAll_none kids h]; rfl
theorem treeMapAll_none : ∀ ts : List Tree, anyLeaf ts → treeMapAll (fun _ => none) ts = none
  | [], h => h.elim
  | t :: ts, h => by
    rw [treeMapAll]
    rcases h with h | h
    · rw [treeMapM_none t h]; rfl
    · rw [treeMapAll_none ts h]
      cases treeMapM (fun _ => none) t <;> rfl
end

/-- **C40.** Clipping the entries of an array twice changes nothing, and the clipped array is the closest to the updates
in every entry among those with entries in `[-d, d]`. -/
theorem clip_closest_partial {d : ℝ} (hd : 0 ≤ d) (a : List ℝ) :
    ∃ b, clipTree d (.leaf a) = some (.leaf b) ∧ clipTree d (.leaf b) = some (.leaf b) ∧
      List.Forall₂ (fun x y => ∀ z, -d ≤ z → z ≤ d → |y - x| ≤ |z - x|) a b := by
  obtain ⟨b, h1, h2, h3, h4⟩ := clip_bounds_partial hd a
  refine ⟨b, h1, ?_, ?_⟩
  · obtain ⟨c, g1, _, _, g4⟩ := clip_bounds_partial hd b
    rw [g1, g4 h3]
  · have hb : b = clipArr d a := by
      have : clipTree d (.leaf a) = some (.leaf (clipArr d a)) := rfl
      rw [h1] at this
      injection this with this
      injection this
    subst hb
    clear h1 h2 h3 h4
    unfold clipArr
    induction a with
    | nil => exact .nil
    | cons x xs ih =>
      refine .cons (fun z hz1 hz2 => ?_) ih
      show |min (max x (-d)) d - x| ≤ |z - x|
      rcases le_total x (-d) with h | h
      · rw [max_eq_right h, min_eq_left (by linarith), abs_of_nonneg (by linarith), abs_of_nonneg (by linarith)]
        linarith
      · rw [max_eq_left h]
        rcases le_total x d with h' | h'
        · rw [min_eq_left h', sub_self, abs_zero]
          exact abs_nonneg _
        · rw [min_eq_right h', abs_of_nonpos (by linarith), abs_of_nonpos (by linarith)]
          linarith

/-- Entries on both sides of the bounds and inside. -/
example : clipTree 1 (.leaf [3, -2, 1 / 2]) = some (.leaf [1, -1, 1 / 2]) ∧
    Real.sqrt (∑ i : Fin 2, clipByGlobalNormMap 1 ![3, 4] i ^ 2) = 1 := by
  refine ⟨?_, ?_⟩
  · have : clipTree 1 (.leaf [3, -2, 1 / 2]) = some (.leaf (clipArr 1 [3, -2, 1 / 2])) := rfl
    rw [this]
    norm_num [clipArr]
  · rw [clip_by_global_norm_eq one_pos, min_eq_right]
    rw [Real.le_sqrt (by norm_num)]
    · norm_num [Fin.sum_univ_two]
    · positivity

/-- **C40**, where it fails: `clip(d)` raises on every container of arrays, because the function it
maps over the leaves clips the whole container. -/
theorem clip_container_raises (d : ℝ) (kids : List Tree) (h : anyLeaf kids) :
    clipTree d (.node kids) = none :=
  treeMapM_none (.node kids) h

example : clipTree 1 (.node [.leaf [0.5], .leaf [2]]) = none :=
  clip_container_raises 1 _ (Or.inl trivial)

/-! ## C53 -/

/-- **C53.** `optimize` returns the `n`-th point of a sequence `x` starting at the initial parameters
whenever each step of the sequence adds the output of the update function run, with its state, over
the gradients at the points visited so far (for an update function that takes `init_key`, as all the
stateful ones and all chains do). -/
theorem optimize_trajectory (grad : (ι → ℝ) → ι → ℝ) (update : Fn ι) (hu : ∃ st, Total update st)
    (hk : update.takesKey = true)
    (x o : ℕ → ι → ℝ)
    (ho : ∀ n, (fullRun update (fun k => grad (x k)) x n).map Prod.fst
      = .ok ((List.range n).map o))
    (hx : ∀ k i, x (k + 1) i = x k i + o k i) (n : ℕ) :
    optimize grad update n (x 0) = .ok (x n) := by
  obtain ⟨st, Good, hs⟩ := hu
  let P : Part ι := ⟨"", update, st, Good, hs⟩
  have hi := P.init_eq (grad (x 0)) (x 0)
  let inv : ℕ → Vars ι := fun k => k.rec (initVars update (grad (x 0)) (x 0))
    fun k v => (step update v (grad (x k)) (x k)).2
  have hgood : ∀ k, Good (inv k) := by
    intro k
    induction k with
    | zero => exact hi.2
    | succ k ih => exact (P.step_eq ih (grad (x k)) (x k)).2
  have hstep : ∀ k, callAndUpdate update (inv k) (grad (x k)) (x k)
      = .ok ((step update (inv k) (grad (x k)) (x k)).1, inv (k + 1)) := fun k =>
    (P.step_eq (hgood k) (grad (x k)) (x k)).1
  have hout : ∀ k, (step update (inv k) (grad (x k)) (x k)).1 = o k := by
    intro k
    have h := fullRun_seq update (fun k => grad (x k)) x
      (fun k => (step update (inv k) (grad (x k)) (x k)).1) inv hi.1 hstep (k + 1)
    have h2 := ho (k + 1)
    rw [h] at h2
    simp only [Except.map, Except.ok.injEq] at h2
    have := congrArg (fun l => l[k]?) h2
    simpa using this
  have main : ∀ m n, optimizeFrom grad update n (inv m) (x m) = .ok (x (m + n), inv (m + n)) := by
    intro m n
    induction n generalizing m with
    | zero => rfl
    | succ n ih =>
      simp only [optimizeFrom, hstep, bind, Except.bind, hout]
      have : applyUpdates (x m) (o m) = x (m + 1) := by
        funext i; rw [hx]; rfl
      rw [this, ih (m + 1), show m + 1 + n = m + (n + 1) by ring]
  simp only [optimize, hk, Bool.not_true, Bool.false_eq_true, if_false, bind, Except.bind]
  rw [show update.init (grad (x 0)) (x 0) = _ from hi.1]
  simp only []
  rw [show callAndUpdate update (initVars update (grad (x 0)) (x 0)) (grad (x 0)) (x 0) = _ from
    hstep 0]
  simp only []
  rw [show optimizeFrom grad update n (initVars update (grad (x 0)) (x 0)) (x 0)
    = .ok (x (0 + n), inv (0 + n)) from main 0 n, Nat.zero_add]
  rfl

theorem fullRun_eq_runFull (f : Fn ι) (g p : ℕ → ι → ℝ) (n : ℕ) :
    fullRun f g p (n + 1) = runFull f (history g p (n + 1)) := by
  have e : history g p (n + 1)
      = (g 0, p 0) :: (List.range n).map fun k => (g (k + 1), p (k + 1)) := by
    simp [history, List.range_succ_eq_map, Function.comp_def]
  unfold fullRun
  rw [e]; rfl

/-- Outputs of a two-stage chain whose second stage is stateless. -/
theorem fullRun_chain_scale (f : Fn ι) (hf : Total f true) (c : ℝ) (g p o : ℕ → ι → ℝ)
    (ho : ∀ n, (fullRun f g p n).map Prod.fst = .ok ((List.range n).map o)) (n : ℕ) :
    (fullRun (chain false [f, scale c]) g p n).map Prod.fst
      = .ok ((List.range n).map fun k i => c * o k i) := by
  have hall : ∀ h ∈ [f, scale c], ∃ st, Total h st := by
    intro h hh
    simp only [List.mem_cons, List.not_mem_nil, or_false] at hh
    rcases hh with rfl | rfl
    · exact ⟨_, hf⟩
    · exact ⟨_, total_pureFn _⟩
  cases n with
  | zero =>
    obtain ⟨st, Good, hs⟩ := total_chain_outputs _ hall
    obtain ⟨v, hv, _⟩ := hs.init_ok (g 0) (p 0)
    simp [fullRun, hv, bind, Except.bind, history, runFrom, Except.map]
  | succ n =>
    rw [fullRun_eq_runFull]
    have h1 := chain_args [f, scale c] hall (history g p (n + 1))
    have h2 := ho (n + 1)
    rw [fullRun_eq_runFull] at h2
    unfold outputs at h1
    rw [h1, List.foldlM_cons, zip_self, h2]
    have e1 : (history g p (n + 1)).map Prod.snd = (List.range (n + 1)).map p := by
      simp [history, Function.comp_def]
    have e2 : ((List.range (n + 1)).map o).zip ((List.range (n + 1)).map p)
        = history o p (n + 1) := by
      rw [List.zip_map']; rfl
    simp only [bind, Except.bind, List.foldlM_cons, List.foldlM_nil]
    rw [e1, e2, ← fullRun_eq_runFull]
    rw [fullRun_seq (scale c) o p (fun k i => c * o k i) (fun _ => []) rfl (fun k => rfl)]
    rfl

/-- **C39/C41**, `sgd`: step `k` outputs `-lr` times the momentum-averaged gradient. -/
theorem sgd_closed_form (lr d : ℝ) (g p : ℕ → ι → ℝ) (n : ℕ) :
    (fullRun (sgd false lr d false) g p n).map Prod.fst
      = .ok ((List.range n).map fun k i => -lr * ∑ j ∈ range (k + 1), d ^ (k - j) * g j i) := by
  refine fullRun_chain_scale _ (total_trace d false) (-lr) g p _ (fun n => ?_) n
  rw [trace_closed_form]; rfl

/-- **C39/C41**, `adam` on a constant gradient moves by `-lr g / (|g| + eps)` at every step. -/
theorem adam_constant (lr b1 b2 eps : ℝ) (h1 : 0 ≤ b1) (h1' : b1 < 1) (h2 : 0 ≤ b2)
    (h2' : b2 < 1) (c : ι → ℝ) (p : ℕ → ι → ℝ) (n : ℕ) :
    (fullRun (adam false lr b1 b2 eps) (fun _ => c) p n).map Prod.fst
      = .ok ((List.range n).map fun _ i => -lr * (c i / (|c i| + eps))) := by
  refine fullRun_chain_scale _ (total_adam b1 b2 eps) (-lr) (fun _ => c) p
    (fun _ i => c i / (|c i| + eps)) (fun n => ?_) n
  rw [adam_bias_correction b1 b2 eps h1 h1' h2 h2']
  simp

/-- **C53**, plain gradient descent: `optimize(objective, sgd(lr), n)` iterates
`x ↦ x - lr · grad x`, if harvest did not record modules without variables. Partial: at the pinned
commit it does (`optimize_sgd_raises`). -/
theorem optimize_sgd_partial (grad : (ι → ℝ) → ι → ℝ) (lr : ℝ) (x0 : ι → ℝ) (n : ℕ) :
    optimize grad (sgd false lr 0 false) n x0
      = .ok ((fun x i => x i - lr * grad x i)^[n] x0) := by
  have htot : ∃ st, Total (sgd (ι := ι) false lr 0 false) st := by
    refine total_chain_outputs _ ?_
    intro f hf
    simp only [List.mem_cons, List.not_mem_nil, or_false] at hf
    rcases hf with rfl | rfl
    · exact ⟨_, total_trace ..⟩
    · exact ⟨_, total_pureFn _⟩
  refine optimize_trajectory grad _ htot rfl (fun k => (fun x i => x i - lr * grad x i)^[k] x0)
    (fun k i => -lr * grad ((fun x i => x i - lr * grad x i)^[k] x0) i) (fun n => ?_) ?_ n
  · rw [sgd_closed_form]
    congr 1
    refine List.map_congr_left fun k _ => ?_
    funext i
    rw [sum_range_succ, sum_eq_zero]
    · simp
    · intro j hj
      have hj := mem_range.1 hj
      rw [zero_pow (by omega), zero_mul]
  · intro k i
    rw [Function.iterate_succ_apply']
    ring

/-- **C53**, on the objective `‖x‖²/2` with any step size in `(0, 2)` the iterates of `optimize` with
`sgd` converge to the minimiser: the error after `n` steps is `(1 - lr)^n` times the initial one, if
harvest did not record modules without variables. Partial, as `optimize_sgd_partial`. -/
theorem optimize_sgd_quadratic_partial (lr : ℝ) (x0 : ι → ℝ) (n : ℕ) :
    optimize (fun x => x) (sgd false lr 0 false) n x0 = .ok fun i => (1 - lr) ^ n * x0 i := by
  rw [optimize_sgd_partial]
  congr 1
  induction n with
  | zero => simp
  | succ n ih =>
    rw [Function.iterate_succ_apply', ih]
    funext i
    ring

/-- **C53**, where it fails: an update function without `init_key` (such as `scale`) cannot be used with
`optimize`, because `gradient_descent` passes it the keyword. -/
theorem optimize_stateless_raises (grad : (ι → ℝ) → ι → ℝ) (g : (ι → ℝ) → (ι → ℝ) → (ι → ℝ)) (n : ℕ)
    (x0 : ι → ℝ) : optimize grad (pureFn g) n x0 = .error .unexpectedKeyword := rfl

/-- **C53**, where it fails: `chain(f, g)` of a stateful `f` and a `g` without `init_key` makes `optimize`
raise for every objective, number of iterations and starting point. -/
theorem optimize_chain_raises (grad : (ι → ℝ) → ι → ℝ) (f : Fn ι) (hf : Total f true)
    (g : (ι → ℝ) → (ι → ℝ) → (ι → ℝ)) (n : ℕ) (x0 : ι → ℝ) :
    optimize grad (chain true [f, pureFn g]) n x0 = .error (.undeclared "update_1") := by
  obtain ⟨vars, h1, h2⟩ := chain_stateless_first_call f hf g (grad x0) x0
  have hk : (chain true [f, pureFn g]).takesKey = true := rfl
  simp only [optimize, hk, h1, h2, Bool.not_true, Bool.false_eq_true, if_false, bind, Except.bind]

/-- **C53**, where it fails: `sgd`. -/
theorem optimize_sgd_raises (grad : (ι → ℝ) → ι → ℝ) (lr m : ℝ) (nesterov : Bool) (n : ℕ)
    (x0 : ι → ℝ) : optimize grad (sgd true lr m nesterov) n x0 = .error (.undeclared "update_1") :=
  optimize_chain_raises grad _ (total_trace m nesterov) _ n x0

/-- **C53**, where it fails: `adam`. -/
theorem optimize_adam_raises (grad : (ι → ℝ) → ι → ℝ) (lr b1 b2 eps : ℝ) (n : ℕ) (x0 : ι → ℝ) :
    optimize grad (adam true lr b1 b2 eps) n x0 = .error (.undeclared "update_1") :=
  optimize_chain_raises grad _ (total_adam b1 b2 eps) _ n x0

/-- **C53**, where it fails: `rmsprop`. -/
theorem optimize_rmsprop_raises (grad : (ι → ℝ) → ι → ℝ) (lr decay eps : ℝ) (centered : Bool) (n : ℕ)
    (x0 : ι → ℝ) :
    optimize grad (rmsprop true lr decay eps centered) n x0 = .error (.undeclared "update_1") := by
  cases centered
  · exact optimize_chain_raises grad _ (total_rms decay eps) _ n x0
  · exact optimize_chain_raises grad _ (total_stddev decay eps) _ n x0

/-- A chain of stateful functions does optimise, with `harvest` as it is: `optimize_trajectory` applies
to `chain(trace(d))` (and to any update function with state). -/
theorem optimize_momentum (grad : (ι → ℝ) → ι → ℝ) (d : ℝ) (x : ℕ → ι → ℝ)
    (hx : ∀ k i, x (k + 1) i = x k i + ∑ j ∈ range (k + 1), d ^ (k - j) * grad (x j) i) (n : ℕ) :
    optimize grad (trace d false) n (x 0) = .ok (x n) :=
  optimize_trajectory grad _ ⟨_, total_trace d false⟩ rfl x
    (fun k i => ∑ j ∈ range (k + 1), d ^ (k - j) * grad (x j) i)
    (fun n => by rw [trace_closed_form]; rfl) hx n

example (n : ℕ) : optimize (fun x : Unit → ℝ => fun i => -x i) (trace 0 false) n (fun _ => 1)
    = .ok (fun _ => if n = 0 then 1 else 0) :=
  optimize_momentum (fun x i => -x i) 0 (fun k _ => if k = 0 then 1 else 0) (by
    intro k i
    rw [sum_range_succ, sum_eq_zero]
    · cases k <;> simp
    · intro j hj
      have hj := mem_range.1 hj
      rw [zero_pow (by omega), zero_mul]) n

end Verif.Optix
