import Verif.Optix.Model
import Mathlib.Data.List.Nodup

namespace Verif.Optix

variable {ι : Type}

/-- A function whose initialisation and calls never fail, from any state it can be in (`Good`), and
which has variables exactly when `stateful`. -/
structure Sound (f : Fn ι) (stateful : Bool) (Good : Vars ι → Prop) : Prop where
  init_ok : ∀ u p, ∃ v, f.init u p = .ok v ∧ Good v
  step_ok : ∀ v u p, Good v → ∃ o v', callAndUpdate f v u p = .ok (o, v') ∧ Good v'
  empty : ∀ v, Good v → v.isEmpty = !stateful

/-- A named function with its invariant. -/
structure Part (ι : Type) where
  name : String
  fn : Fn ι
  stateful : Bool
  Good : Vars ι → Prop
  sound : Sound fn stateful Good

/-- The total version of `callAndUpdate`. -/
def step (f : Fn ι) (v : Vars ι) (u p : ι → ℝ) : (ι → ℝ) × Vars ι :=
  match callAndUpdate f v u p with
  | .ok r => r
  | .error _ => (u, v)

/-- The total version of `init`. -/
def initVars (f : Fn ι) (u p : ι → ℝ) : Vars ι :=
  match f.init u p with
  | .ok v => v
  | .error _ => []

theorem Part.init_eq (P : Part ι) (u p : ι → ℝ) :
    P.fn.init u p = .ok (initVars P.fn u p) ∧ P.Good (initVars P.fn u p) := by
  obtain ⟨v, h, hg⟩ := P.sound.init_ok u p
  simp only [initVars, h]
  exact ⟨trivial, hg⟩

theorem Part.step_eq (P : Part ι) {v : Vars ι} (hv : P.Good v) (u p : ι → ℝ) :
    callAndUpdate P.fn v u p = .ok (step P.fn v u p) ∧ P.Good (step P.fn v u p).2 := by
  obtain ⟨o, v', h, hg⟩ := P.sound.step_ok v u p hv
  simp only [step, h]
  exact ⟨trivial, hg⟩

/-- All components of a chain are in good states. -/
def AllGood : List (Part ι) → List (Vars ι) → Prop
  | [], [] => True
  | P :: Ps, v :: vs => P.Good v ∧ AllGood Ps vs
  | _, _ => False

/-- The variables of the chain module. -/
def encode : List (Part ι) → List (Vars ι) → Vars ι
  | P :: Ps, v :: vs => if P.stateful then (P.name, .mod v) :: encode Ps vs else encode Ps vs
  | _, _ => []

/-- One call of all the components, in order. -/
def stepAll : List (Part ι) → List (Vars ι) → (ι → ℝ) → (ι → ℝ) → (ι → ℝ) × List (Vars ι)
  | P :: Ps, v :: vs, u, p =>
    let r := step P.fn v u p
    let rest := stepAll Ps vs r.1 p
    (rest.1, r.2 :: rest.2)
  | _, _, u, _ => (u, [])

/-- Initialisation of all the components. -/
def initAll : List (Part ι) → (ι → ℝ) → (ι → ℝ) → List (Vars ι)
  | [], _, _ => []
  | P :: Ps, u, p =>
    let v := initVars P.fn u p
    v :: initAll Ps (step P.fn v u p).1 p

theorem initAll_good (Ps : List (Part ι)) (u p : ι → ℝ) : AllGood Ps (initAll Ps u p) := by
  induction Ps generalizing u with
  | nil => exact trivial
  | cons P Ps ih => exact ⟨(P.init_eq u p).2, ih _⟩

theorem stepAll_good {Ps : List (Part ι)} {vs : List (Vars ι)} (h : AllGood Ps vs) (u p : ι → ℝ) :
    AllGood Ps (stepAll Ps vs u p).2 := by
  induction Ps generalizing vs u with
  | nil => cases vs with
    | nil => exact trivial
    | cons v vs => exact h.elim
  | cons P Ps ih => cases vs with
    | nil => exact h.elim
    | cons v vs => exact ⟨(P.step_eq h.1 u p).2, ih h.2 _⟩

theorem lookup_append_none {α : Type} {a b : List (String × α)} {n : String}
    (h : a.lookup n = none) : (a ++ b).lookup n = b.lookup n := by
  rw [List.lookup_append, h]; rfl

theorem lookup_none_of_notMem {α : Type} {a : List (String × α)} {n : String}
    (h : n ∉ a.map Prod.fst) : a.lookup n = none := by
  induction a with
  | nil => rfl
  | cons kv a ih =>
    simp only [List.map_cons, List.mem_cons, not_or] at h
    rw [List.lookup_cons, beq_eq_false_iff_ne.2 h.1]
    exact ih h.2

theorem lookup_some_of_mem {α : Type} {a : List (String × α)} {n : String}
    (h : n ∈ a.map Prod.fst) : ∃ x, a.lookup n = some x := by
  induction a with
  | nil => simp at h
  | cons kv a ih =>
    rw [List.lookup_cons]
    by_cases hn : n = kv.1
    · exact ⟨kv.2, by rw [beq_iff_eq.2 hn]⟩
    · rw [beq_eq_false_iff_ne.2 hn]
      simp only [List.map_cons, List.mem_cons] at h
      exact ih (h.resolve_left hn)

/-- The names the chain's variables have. -/
def statefulNames (Ps : List (Part ι)) : List String :=
  (Ps.filter (fun P => P.stateful)).map Part.name

theorem encode_names {Ps : List (Part ι)} {vs : List (Vars ι)} (h : AllGood Ps vs) :
    (encode Ps vs).map Prod.fst = statefulNames Ps := by
  induction Ps generalizing vs with
  | nil => cases vs <;> rfl
  | cons P Ps ih => cases vs with
    | nil => exact h.elim
    | cons v vs =>
      simp only [encode, statefulNames, List.filter_cons]
      split_ifs with hs
      · simp only [List.map_cons]; rw [ih h.2]; rfl
      · rw [ih h.2]; rfl

theorem statefulNames_sub {Ps : List (Part ι)} {n : String} (h : n ∈ statefulNames Ps) :
    n ∈ Ps.map Part.name := by
  simp only [statefulNames, List.mem_map, List.mem_filter] at h
  obtain ⟨P, ⟨h1, _⟩, h2⟩ := h
  exact List.mem_map.2 ⟨P, h1, h2⟩

theorem statefulNames_nodup {Ps : List (Part ι)} (h : (Ps.map Part.name).Nodup) :
    (statefulNames Ps).Nodup := by
  unfold statefulNames
  exact h.sublist (List.filter_sublist.map _)

/-- Drop the invariants. -/
def fns (Ps : List (Part ι)) : List (String × Fn ι) := Ps.map fun P => (P.name, P.fn)

theorem chainInit_eq (Ps : List (Part ι)) (hn : (Ps.map Part.name).Nodup) (acc : Vars ι)
    (hacc : ∀ n ∈ Ps.map Part.name, acc.lookup n = none) (u p : ι → ℝ) :
    chainInit (fns Ps) acc u p = .ok (acc ++ encode Ps (initAll Ps u p)) := by
  induction Ps generalizing acc u with
  | nil => simp [fns, chainInit, encode]
  | cons P Ps ih =>
    have h0 := P.init_eq u p
    have h1 := P.step_eq h0.2 u p
    have hE := P.sound.empty _ h0.2
    rw [List.map_cons, List.nodup_cons] at hn
    show (do
      let vars ← P.fn.init u p
      let acc ← (if vars.isEmpty then pure acc
        else if (acc.lookup P.name).isSome then throw (Err.duplicate P.name)
        else pure (acc ++ [(P.name, Val.mod vars)]))
      let r ← callAndUpdate P.fn vars u p
      chainInit (fns Ps) acc r.1 p) = _
    rw [h0.1]
    simp only [bind, Except.bind]
    rw [hE, h1.1]
    cases hs : P.stateful
    · simp only [Bool.not_false, if_true, pure, Except.pure]
      rw [ih hn.2 acc (fun n h => hacc n (List.mem_cons_of_mem _ h))]
      simp [encode, initAll, hs]
    · have : (acc.lookup P.name).isSome = false := by
        rw [hacc P.name (List.mem_cons_self ..)]; rfl
      simp only [Bool.not_true, this, if_false, Bool.false_eq_true, pure, Except.pure]
      rw [ih hn.2]
      · simp [encode, initAll, hs]
      · intro n h
        rw [lookup_append_none (hacc n (List.mem_cons_of_mem _ h)), List.lookup_cons,
          beq_eq_false_iff_ne.2 (fun e : n = P.name => hn.1 (e ▸ h))]
        rfl

/-- Every stateful component's variables are planted. -/
def Planted (V : Vars ι) : List (Part ι) → List (Vars ι) → Prop
  | P :: Ps, v :: vs => (P.stateful = true → V.lookup P.name = some (.mod v)) ∧ Planted V Ps vs
  | _, _ => True

theorem planted_cons {V : Vars ι} {kv : String × Val ι} {Ps : List (Part ι)} {vs : List (Vars ι)}
    (h : Planted V Ps vs) (hk : kv.1 ∉ Ps.map Part.name) : Planted (kv :: V) Ps vs := by
  induction Ps generalizing vs with
  | nil => cases vs <;> exact trivial
  | cons P Ps ih => cases vs with
    | nil => exact trivial
    | cons v vs =>
      simp only [List.map_cons, List.mem_cons, not_or] at hk
      refine ⟨fun hs => ?_, ih h.2 hk.2⟩
      rw [List.lookup_cons, beq_eq_false_iff_ne.2 (fun e => hk.1 e.symm)]
      exact h.1 hs

theorem planted_encode {Ps : List (Part ι)} (hn : (Ps.map Part.name).Nodup) {vs : List (Vars ι)}
    (h : AllGood Ps vs) : Planted (encode Ps vs) Ps vs := by
  induction Ps generalizing vs with
  | nil => cases vs <;> exact trivial
  | cons P Ps ih => cases vs with
    | nil => exact h.elim
    | cons v vs =>
      rw [List.map_cons, List.nodup_cons] at hn
      simp only [encode]
      cases hs : P.stateful
      · simp only [Bool.false_eq_true, if_false]
        exact ⟨fun h' => by simp [hs] at h', ih hn.2 h.2⟩
      · simp only [if_true]
        refine ⟨fun _ => by rw [List.lookup_cons, beq_self_eq_true], ?_⟩
        exact planted_cons (ih hn.2 h.2) hn.1

theorem chainRun_eq (flag : Bool) (Ps : List (Part ι)) (hn : (Ps.map Part.name).Nodup)
    (hflag : flag = false ∨ ∀ P ∈ Ps, P.stateful = true)
    (V : Vars ι) {vs : List (Vars ι)} (hg : AllGood Ps vs) (hV : Planted V Ps vs)
    (assigns : Vars ι) (ha : ∀ n ∈ Ps.map Part.name, n ∉ assigns.map Prod.fst) (u p : ι → ℝ) :
    chainRun flag (fns Ps) V assigns u p
      = .ok ((stepAll Ps vs u p).1, assigns ++ encode Ps (stepAll Ps vs u p).2) := by
  induction Ps generalizing vs assigns u with
  | nil => cases vs with
    | nil => simp [fns, chainRun, stepAll, encode]
    | cons v vs => exact hg.elim
  | cons P Ps ih => cases vs with
    | nil => exact hg.elim
    | cons v vs =>
      have h0 := P.init_eq u p
      have hE := P.sound.empty _ h0.2
      have h1 := P.step_eq hg.1 u p
      have hE1 := P.sound.empty _ h1.2
      rw [List.map_cons, List.nodup_cons] at hn
      have hflag' : flag = false ∨ ∀ P ∈ Ps, P.stateful = true :=
        hflag.imp id fun h Q hQ => h Q (List.mem_cons_of_mem _ hQ)
      have hvars : (if (initVars P.fn u p).isEmpty then initVars P.fn u p
          else match V.lookup P.name with
            | some (.mod vars) => vars
            | _ => initVars P.fn u p) = v := by
        rw [hE]
        cases hs : P.stateful
        · have e1 : (initVars P.fn u p) = [] := by
            rw [hs] at hE; exact List.isEmpty_iff.1 hE
          have e2 : v = [] := by
            have := P.sound.empty _ hg.1
            rw [hs] at this; exact List.isEmpty_iff.1 this
          simp [e1, e2]
        · rw [hV.1 hs]; rfl
      show (do
        let vars0 ← P.fn.init u p
        let vars := if vars0.isEmpty then vars0
          else match V.lookup P.name with
            | some (.mod vars) => vars
            | _ => vars0
        let r ← callAndUpdate P.fn vars u p
        let assigns := if r.2.isEmpty && !flag then assigns
          else (assigns.filter fun (kv : String × Val ι) => kv.1 != P.name) ++ [(P.name, Val.mod r.2)]
        chainRun flag (fns Ps) V assigns r.1 p) = _
      rw [h0.1]
      simp only [bind, Except.bind]
      rw [hvars, h1.1]
      simp only []
      rw [hE1]
      have hfilter : assigns.filter (fun kv => kv.1 != P.name) = assigns := by
        rw [List.filter_eq_self]
        intro kv hkv
        simp only [bne_iff_ne, ne_eq]
        intro e
        exact ha P.name (List.mem_cons_self ..) (List.mem_map.2 ⟨kv, hkv, e⟩)
      cases hs : P.stateful
      · have hf : flag = false := by
          rcases hflag with h | h
          · exact h
          · have := h P (List.mem_cons_self ..)
            rw [hs] at this; cases this
        simp only [hf, Bool.not_false, Bool.and_self, if_true]
        rw [hf] at ih
        rw [ih hn.2 (Or.inl rfl) hg.2 hV.2 assigns
          (fun n h => ha n (List.mem_cons_of_mem _ h))]
        simp [stepAll, encode, hs]
      · simp only [Bool.not_true, Bool.false_and, Bool.false_eq_true, if_false]
        rw [hfilter, ih hn.2 hflag' hg.2 hV.2]
        · simp [stepAll, encode, hs]
        · intro n h
          simp only [List.map_append, List.map_cons, List.map_nil, List.mem_append,
            List.mem_singleton, not_or]
          exact ⟨ha n (List.mem_cons_of_mem _ h), fun e => hn.1 (e ▸ h)⟩

theorem overwrite_encode_aux {Ps : List (Part ι)} (hn : (Ps.map Part.name).Nodup)
    {vs ws : List (Vars ι)} (hv : AllGood Ps vs) (hw : AllGood Ps ws) (A : Vars ι)
    (hA : Planted A Ps ws) : overwrite (encode Ps vs) A = encode Ps ws := by
  induction Ps generalizing vs ws with
  | nil => cases vs <;> cases ws <;> simp [encode, overwrite]
  | cons P Ps ih => cases vs with
    | nil => exact hv.elim
    | cons v vs => cases ws with
      | nil => exact hw.elim
      | cons w ws =>
        rw [List.map_cons, List.nodup_cons] at hn
        simp only [encode]
        cases hs : P.stateful
        · simp only [Bool.false_eq_true, if_false]
          exact ih hn.2 hv.2 hw.2 hA.2
        · simp only [if_true, overwrite, List.map_cons]
          rw [hA.1 hs]
          simp only [Option.getD_some]
          congr 1
          exact ih hn.2 hv.2 hw.2 hA.2

theorem chain_callAndUpdate (flag : Bool) (Ps : List (Part ι)) (hn : (Ps.map Part.name).Nodup)
    (hflag : flag = false ∨ ∀ P ∈ Ps, P.stateful = true)
    {vs : List (Vars ι)} (hg : AllGood Ps vs) (u p : ι → ℝ) :
    callAndUpdate (chainNamed flag (fns Ps)) (encode Ps vs) u p
      = .ok ((stepAll Ps vs u p).1, encode Ps (stepAll Ps vs u p).2) := by
  have hrun := chainRun_eq flag Ps hn hflag (encode Ps vs) hg (planted_encode hn hg) []
    (fun _ _ => by simp) u p
  have hg' := stepAll_good hg u p
  simp only [callAndUpdate, chainNamed, hrun, bind, Except.bind, List.nil_append]
  have hfind : (encode Ps (stepAll Ps vs u p).2).find?
      (fun kv => ((encode Ps vs).lookup kv.1).isNone) = none := by
    rw [List.find?_eq_none]
    intro kv hkv
    have : kv.1 ∈ (encode Ps vs).map Prod.fst := by
      rw [encode_names hg, ← encode_names hg']
      exact List.mem_map.2 ⟨kv, hkv, rfl⟩
    obtain ⟨x, hx⟩ := lookup_some_of_mem this
    simp [hx]
  rw [hfind]
  simp only [pure, Except.pure]
  rw [overwrite_encode_aux hn hg hg' _ (planted_encode hn hg')]

/-- The chain's own invariant. -/
def ChainGood (Ps : List (Part ι)) (V : Vars ι) : Prop := ∃ vs, AllGood Ps vs ∧ V = encode Ps vs

theorem chain_sound (flag : Bool) (Ps : List (Part ι)) (hn : (Ps.map Part.name).Nodup)
    (hflag : flag = false ∨ ∀ P ∈ Ps, P.stateful = true) :
    Sound (chainNamed flag (fns Ps)) (Ps.any fun P => P.stateful) (ChainGood Ps) where
  init_ok u p := ⟨_, by
    show chainInit (fns Ps) [] u p = _
    exact chainInit_eq Ps hn [] (fun _ _ => rfl) u p, _, initAll_good Ps u p, rfl⟩
  step_ok := by
    rintro _ u p ⟨vs, hg, rfl⟩
    exact ⟨_, _, chain_callAndUpdate flag Ps hn hflag hg u p, _, stepAll_good hg u p, rfl⟩
  empty := by
    rintro _ ⟨vs, hg, rfl⟩
    have h := encode_names hg
    have : (encode Ps vs).isEmpty = (statefulNames Ps).isEmpty := by
      rw [← h]; cases encode Ps vs <;> rfl
    rw [this, statefulNames]
    clear this h hg hn hflag
    induction Ps with
    | nil => rfl
    | cons P Ps ih =>
      cases hs : P.stateful <;> simp_all

/-! ### Histories -/

/-- Outputs of a component over a history, total version. -/
def outs (f : Fn ι) : Vars ι → List ((ι → ℝ) × (ι → ℝ)) → List (ι → ℝ)
  | _, [] => []
  | v, (u, p) :: hist => (step f v u p).1 :: outs f (step f v u p).2 hist

theorem runFrom_eq (P : Part ι) {v : Vars ι} (hv : P.Good v) (hist : List ((ι → ℝ) × (ι → ℝ))) :
    ∃ v', runFrom P.fn v hist = .ok (outs P.fn v hist, v') := by
  induction hist generalizing v with
  | nil => exact ⟨v, rfl⟩
  | cons up hist ih =>
    obtain ⟨u, p⟩ := up
    have h := P.step_eq hv u p
    obtain ⟨v', h'⟩ := ih h.2
    refine ⟨v', ?_⟩
    simp only [runFrom, h.1, h', bind, Except.bind, outs, pure, Except.pure]

theorem runHist_eq (P : Part ι) (u p : ι → ℝ) (hist : List ((ι → ℝ) × (ι → ℝ))) :
    runHist P.fn ((u, p) :: hist) = .ok (outs P.fn (initVars P.fn u p) ((u, p) :: hist)) := by
  have h := P.init_eq u p
  obtain ⟨v', h'⟩ := runFrom_eq P h.2 ((u, p) :: hist)
  simp only [runHist, h.1, h', bind, Except.bind, pure, Except.pure]

/-- Time-major outputs of all components. -/
def outsAll (Ps : List (Part ι)) : List (Vars ι) → List ((ι → ℝ) × (ι → ℝ)) → List (ι → ℝ)
  | _, [] => []
  | vs, (u, p) :: hist => (stepAll Ps vs u p).1 :: outsAll Ps (stepAll Ps vs u p).2 hist

theorem outsAll_cons (P : Part ι) (Ps : List (Part ι)) (v : Vars ι) (vs : List (Vars ι))
    (hist : List ((ι → ℝ) × (ι → ℝ))) :
    outsAll (P :: Ps) (v :: vs) hist
      = outsAll Ps vs ((outs P.fn v hist).zip (hist.map Prod.snd)) := by
  induction hist generalizing v vs with
  | nil => rfl
  | cons up hist ih =>
    obtain ⟨u, p⟩ := up
    simp only [outsAll, outs, List.map_cons, List.zip_cons_cons, stepAll]
    rw [ih]

theorem chain_runFrom (flag : Bool) (Ps : List (Part ι)) (hn : (Ps.map Part.name).Nodup)
    (hflag : flag = false ∨ ∀ P ∈ Ps, P.stateful = true) {vs : List (Vars ι)} (hg : AllGood Ps vs)
    (hist : List ((ι → ℝ) × (ι → ℝ))) :
    ∃ V', runFrom (chainNamed flag (fns Ps)) (encode Ps vs) hist = .ok (outsAll Ps vs hist, V') := by
  induction hist generalizing vs with
  | nil => exact ⟨_, rfl⟩
  | cons up hist ih =>
    obtain ⟨u, p⟩ := up
    have h := chain_callAndUpdate flag Ps hn hflag hg u p
    obtain ⟨V', h'⟩ := ih (stepAll_good hg u p)
    refine ⟨V', ?_⟩
    simp only [runFrom, h, h', bind, Except.bind, outsAll, pure, Except.pure]

theorem chain_runHist (flag : Bool) (Ps : List (Part ι)) (hn : (Ps.map Part.name).Nodup)
    (hflag : flag = false ∨ ∀ P ∈ Ps, P.stateful = true) (u p : ι → ℝ)
    (hist : List ((ι → ℝ) × (ι → ℝ))) :
    runHist (chainNamed flag (fns Ps)) ((u, p) :: hist)
      = .ok (outsAll Ps (initAll Ps u p) ((u, p) :: hist)) := by
  obtain ⟨V', h'⟩ := chain_runFrom flag Ps hn hflag (initAll_good Ps u p) ((u, p) :: hist)
  have h0 : (chainNamed flag (fns Ps)).init u p = .ok (encode Ps (initAll Ps u p)) :=
    chainInit_eq Ps hn [] (fun _ _ => rfl) u p
  simp only [runHist, h0, h', bind, Except.bind, pure, Except.pure]

theorem outs_length (f : Fn ι) (v : Vars ι) (hist : List ((ι → ℝ) × (ι → ℝ))) :
    (outs f v hist).length = hist.length := by
  induction hist generalizing v with
  | nil => rfl
  | cons up hist ih => simp [outs, ih]

theorem outsAll_nil (hist : List ((ι → ℝ) × (ι → ℝ))) :
    outsAll ([] : List (Part ι)) [] hist = hist.map Prod.fst := by
  induction hist with
  | nil => rfl
  | cons up hist ih => simp [outsAll, stepAll, ih]

theorem chain_foldlM (flag : Bool) (Ps : List (Part ι)) (hn : (Ps.map Part.name).Nodup)
    (hflag : flag = false ∨ ∀ P ∈ Ps, P.stateful = true)
    (hist : List ((ι → ℝ) × (ι → ℝ))) :
    runHist (chainNamed flag (fns Ps)) hist
      = (fns Ps).foldlM (fun us f => runHist f.2 (us.zip (hist.map Prod.snd)))
          (hist.map Prod.fst) := by
  cases hist with
  | nil =>
    have : ∀ l : List (String × Fn ι), l.foldlM (m := Except Err)
        (fun us f => runHist f.2 (us.zip (([] : List ((ι → ℝ) × (ι → ℝ))).map Prod.snd)))
        (([] : List ((ι → ℝ) × (ι → ℝ))).map Prod.fst) = .ok [] := by
      intro l
      induction l with
      | nil => rfl
      | cons f l ih =>
        rw [List.foldlM_cons]
        exact ih
    rw [this]; rfl
  | cons up hist =>
    obtain ⟨u, p⟩ := up
    rw [chain_runHist flag Ps hn hflag]
    clear hflag
    generalize hps : ((u, p) :: hist).map Prod.snd = ps
    have hzip : (((u, p) :: hist).map Prod.fst).zip ps = (u, p) :: hist := by
      rw [← hps, List.zip_map']; simp
    generalize hus : ((u, p) :: hist).map Prod.fst = us
    rw [hus] at hzip
    induction Ps generalizing u hist us with
    | nil =>
      rw [show initAll ([] : List (Part ι)) u p = [] from rfl, outsAll_nil, hus]
      rfl
    | cons P Ps ih =>
      rw [List.map_cons, List.nodup_cons] at hn
      show _ = (runHist P.fn (us.zip ps) >>= fun us => (fns Ps).foldlM
        (fun us f => runHist f.2 (us.zip ps)) us)
      rw [hzip, runHist_eq]
      simp only [bind, Except.bind]
      show Except.ok (outsAll (P :: Ps) (initVars P.fn u p :: initAll Ps _ p) _) = _
      rw [outsAll_cons, hps]
      have hlen : (outs P.fn (initVars P.fn u p) ((u, p) :: hist)).length = ps.length := by
        rw [outs_length, ← hps, List.length_map]
      have hform : (outs P.fn (initVars P.fn u p) ((u, p) :: hist)).zip ps
          = ((step P.fn (initVars P.fn u p) u p).1, p) ::
            (outs P.fn (step P.fn (initVars P.fn u p) u p).2 hist).zip (hist.map Prod.snd) := by
        rw [← hps]; rfl
      rw [hform]
      refine ih hn.2 _ _ ?_ _ ?_ ?_
      · rw [← hform, List.map_snd_zip (by omega)]
      · exact hform
      · rw [← hform, List.map_fst_zip (by omega)]

end Verif.Optix
