/-
C68: a module called inside a stateful function gives its state to that function.
-/
import Verif.State.NestedRun
import Verif.State.InitCall

namespace Verif.State

open Verif.Harvest

theorem declares_assign {V : Type} (name : Option String) (ns : List String) (vars : Dict V) (h : HasNames vars ns)
    (n : String) : (declares asgS n (sites (assignModule name ns : Prog V (Dict V) Unit))).isSome =
      (inherit name vars n).isSome := by
  have ha : ∀ n, asgS.active assignTag n = true := fun n => by rw [← dispatch_handle]; exact asgS_handle n
  cases name with
  | none =>
    simp only [assignModule, inherit]
    have : (declares asgS n (sites (assignAll ns : Prog V (Dict V) Unit))).isSome = decide (n ∈ ns) := by
      clear h
      induction ns with
      | nil => simp [assignAll, sites, declares]
      | cons k ns ih =>
        simp only [assignAll, assignP, sites, declares_append, Option.isSome_or, ih, declares, Site.declares, ha,
          and_true, Option.or_none, List.mem_cons]
        by_cases hk : k = n
        · simp [hk]
        · simp [hk, Ne.symm hk]
    rw [this, Bool.eq_iff_iff, decide_eq_true_eq, h n]
  | some name =>
    simp only [assignModule, assignP, sites, declares, Site.declares, ha, and_true, inherit]
    by_cases hk : name = n
    · simp [hk]
    · simp [hk, Ne.symm hk]

/-- The pieces of the program `init(f, name=name)(key, x)(x)`. -/
theorem initCall_ok {V K X Y : Type} {fuel : Nat} {key0 : K} {f : Prog V (K × X) Y} {name : Option String}
    {key : K} {x : X} {m : FModule V X Y} {g : Prog V (K × X) Y} (h : functionInit fuel key0 f name key x = .ok m)
    (hg : initCall fuel key0 f name key x = .ok g) :
    ∃ me r, metaOf reapS f [] = .ok me ∧ reap reapS f = .ok r ∧ g = nestedBody r (me.map (·.1)) m ∧
      ∀ n ∈ m.assigned, (m.variables n).isSome := by
  simp only [initCall, h] at hg
  rcases h1 : metaOf reapS f [] with e | me <;> rw [h1] at hg
  · simp at hg
  rcases h2 : reap reapS f with e | r <;> rw [h2] at hg
  · simp at hg
  simp only [nestedModule] at hg
  rcases h3 : m.assigned.find? (fun n => (m.variables n).isNone) with _ | n <;> rw [h3] at hg
  · simp only [Except.ok.injEq] at hg
    rw [List.find?_eq_none] at h3
    refine ⟨me, r, rfl, rfl, hg.symm, fun n hn => ?_⟩
    have := h3 n hn
    rw [Option.isSome_iff_ne_none]
    simpa using this
  · simp at hg

/-- The initial variables can be computed whenever the function can be run, and have the static names. -/
theorem run_reap_f {V K X Y : Type} {f : Prog V (K × X) Y} {me : Meta} {r : Prog V (K × X) (Dict V)}
    (hme : metaOf reapS f [] = .ok me) (hr : reap reapS f = .ok r) (fuel : Nat) (a : K × X) :
    ((∃ y, run fuel f a = .ok y) → ∃ d, run fuel r a = .ok d) ∧
    ∀ d, run fuel r a = .ok d → HasNames d (me.map (·.1)) := by
  simp only [reap] at hr
  rcases hc : callAndReap reapS f with e | t <;> rw [hc] at hr <;> simp at hr
  subst hr
  constructor
  · rintro ⟨y, hy⟩
    have h1 := trace_reapT reapS fuel f a (fun _ => none)
    rw [run_eq_trace] at hy
    simp only [run, run_callAndReap hc]
    rw [run_eq_trace fuel (reapT reapS f)]
    rcases ht : trace fuel f a with e | q <;> rw [ht] at hy h1 <;> simp at hy
    rcases ht2 : trace fuel (reapT reapS f) (a, fun _ => none) with e | q2 <;> rw [ht2] at h1 <;> simp at h1
    exact ⟨_, rfl⟩
  · intro d hd n
    simp only [run] at hd
    rcases ht : run fuel t a with e | q <;> rw [ht] at hd <;> simp at hd
    rw [← hd, ← Meta.get_isSome_iff, metaOf_nil_get hme, reap_keys reapS f t hc fuel _ q ht n]

/-- The staged `call_and_update` returns a value for every assigned name, and no sow of the two tags is left
in it. -/
theorem jaxpr_facts {V K X Y : Type} {fuel : Nat} {key0 : K} {f : Prog V (K × X) Y} {name : Option String}
    {key : K} {x : X} {m : FModule V X Y} (h : functionInit fuel key0 f name key x = .ok m)
    (hnp : NestPlanted varS f m.variables) :
    Foreign varS m.jaxpr ∧ Foreign asgS m.jaxpr ∧
    ∀ fuel' a y as, run fuel' m.jaxpr a = .ok (y, as) → ∀ n ∈ m.assigned, (as n).isSome := by
  have hnames := init_variable_names fuel key0 f name key x m h
  obtain ⟨r, g, st, h', j, me, hr, -, hc, hg, hp', hme, hj, hm⟩ := functionInit_ok h
  have hjx : m.jaxpr = j := by rw [hm]
  have has : m.assigned = me.map (·.1) := by rw [hm]
  have hmf : ∃ mf, metaOf varS f [] = .ok mf := by
    simp only [reap] at hr
    rcases hcr : callAndReap reapS f with e | t <;> rw [hcr] at hr <;> simp at hr
    obtain ⟨mf, h1, -⟩ := callAndReap_ok hcr
    exact ⟨mf, by rw [← metaOf_reap_var]; exact h1⟩
  obtain ⟨mf, hmf⟩ := hmf
  have hd : ∀ n, (declares varS n (sites f)).isSome → (m.variables n).isSome := by
    intro n hn
    rw [hnames, declares_reap_var]
    exact hn
  have hfv : Foreign varS (plantT varS f m.variables) :=
    foreign_plantT_all f [] mf m.variables hmf (fun n hn => .inr (hd n (by rwa [metaOf_nil_get hmf] at hn))) hd rfl rfl hnp
  obtain ⟨⟨st2, hc2⟩, hgeq⟩ := plant_ok hp'
  refine ⟨?_, ?_, ?_⟩
  · rw [hjx]
    refine foreign_callAndReap_any hj ?_
    rw [hgeq]
    refine ⟨trivial, foreign_plantT_any g ?_ _, trivial⟩
    rw [hg]
    exact ⟨trivial, hfv, trivial⟩
  · rw [hjx]; exact foreign_callAndReap hj asgS rfl
  · intro fuel' a y as hrun n hn
    rw [hjx] at hrun
    have := reap_keys asgS h' j hj fuel' a (y, as) hrun n
    rw [this, ← metaOf_nil_get hme, Meta.get_isSome_iff, ← has]
    exact hn

/-- `init` accepts a program when its four traces succeed. -/
theorem functionInit_of {V K X Y : Type} {fuel : Nat} {key0 : K} {f : Prog V (K × X) Y} {me : Meta}
    (name : Option String) {key : K} {x : X} {y : Y} {R : Reaps V} {vars : Dict V} {st st' : List String} {ma : Meta}
    (h1 : metaOf reapS f [] = .ok me)
    (h2 : run fuel (reapT reapS f) ((key, x), fun _ => none) = .ok (y, R))
    (h3 : (fun k => (R k).map selectFromPred) = vars)
    (h4 : plantCheck varS f vars [] = .ok st)
    (h5 : metaOf asgS (plantT varS f vars) [] = .ok ma)
    (h6 : plantCheck asgS (plantT varS f vars) (fun _ => none) [] = .ok st') :
    ∃ M, functionInit fuel key0 f name key x = .ok M ∧ M.variables = vars ∧ M.name = name := by
  have hr : ∃ t, callAndReap reapS f = .ok t ∧ reap reapS f = .ok (.seq t (.pure (fun r => .ok r.2))) := by
    simp only [reap, callAndReap, h1, except_map_ok]
    exact ⟨_, rfl, rfl⟩
  obtain ⟨t, ht, hr⟩ := hr
  have hrun : run fuel (.seq t (.pure (fun r : Y × Dict V => .ok r.2))) (key, x) = .ok vars := by
    simp only [run, run_callAndReap ht, h2, except_map_ok, except_bind_ok, h3]
  let g : Prog V (Dict V × X) Y := .seq (.pure (fun a => .ok ((key0, a.2), a.1)))
      (.seq (plantT varS f vars) (.pure (fun r => .ok r.1)))
  have hap : applyF key0 f vars = .ok g := by simp only [applyF, h4]; rfl
  have hpc : plantCheck asgS g (fun _ => none) [] = .ok st' := by
    simp only [g, plantCheck, except_bind_ok, h6]
  obtain ⟨h', hh'⟩ : ∃ h', plant asgS g (fun _ => none) = .ok h' := by
    simp only [plant, hpc]; exact ⟨_, rfl⟩
  have hmm := metaOf_plantT_none asgS g ⟨_, _, hpc⟩ []
  obtain ⟨-, hgeq⟩ := plant_ok hh'
  have hm' : metaOf asgS h' [] = .ok ma := by
    rw [hgeq]
    simp only [metaOf, except_bind_ok, hmm]
    simp only [g, metaOf, except_bind_ok, h5]
  obtain ⟨j, hj⟩ : ∃ j, callAndReap asgS h' = .ok j := by
    simp only [callAndReap, hm']; exact ⟨_, rfl⟩
  refine ⟨⟨name, vars, j, ma.map (·.1)⟩, ?_, rfl, rfl⟩
  simp only [functionInit, hr, hrun, hap, hh', hm', hj]

/-- The staged function of a module, as a reap of the planted program. -/
theorem run_jaxpr_raw {V K X Y : Type} {fuel : Nat} {key0 : K} {f : Prog V (K × X) Y}
    {name : Option String} {key : K} {x : X} {m : FModule V X Y}
    (h : functionInit fuel key0 f name key x = .ok m) (vars : Dict V) (fuel' : Nat) (x' : X) :
    run fuel' m.jaxpr (vars, x') = (run fuel' (reapT asgS (plantT varS f m.variables))
      (((key0, x'), vars), fun _ => none)).map (fun r => (r.1.1, fun k => (r.2 k).map selectFromPred)) := by
  obtain ⟨r, g, st, h', j, me, -, -, hc, hg, hp', hme, hj, hm⟩ := functionInit_ok h
  have hjx : m.jaxpr = j := by rw [hm]
  obtain ⟨⟨st2, hc2⟩, hgeq⟩ := plant_ok hp'
  have hmm := metaOf_plantT_none asgS g ⟨_, _, hc2⟩ []
  have hmg : metaOf asgS g [] = .ok me := by
    rw [hgeq] at hme
    simp only [metaOf, except_bind_ok, hmm] at hme
    rcases hh : metaOf asgS g [] with e | m' <;> rw [hh] at hme <;> simp at hme
    rw [hme]
  have hacc : ∃ t, callAndReap asgS g = .ok t := by simp only [callAndReap, hmg]; exact ⟨_, rfl⟩
  obtain ⟨t, ht⟩ := hacc
  obtain ⟨j', hj', hrun⟩ := reap_plant_nothing asgS g h' hp' t ht
  rw [hj] at hj'
  cases hj'
  rw [hjx, hrun, run_callAndReap ht, hg]
  simp only [reapT, run, except_map_ok, except_bind_ok]
  rcases run fuel' (reapT asgS (plantT varS f m.variables)) (((key0, x'), vars), fun _ => none) with e | q <;> rfl

/-- C68: let `g` be a stateful function that initialises the module `m = init(f, name)` and calls it once, on a
key and an argument computed from its own (`pre`), and whose output is computed from the output of the module
(`post`).  Then `init(g)` succeeds, its module holds exactly the state of `m` (flat if `m` has no name, under its
name otherwise), and its `call_and_update` is the `call_and_update` of `m`: same output, same new state, same
errors. -/
theorem nested_inherits {V K X Y X' Y' : Type} (fuel : Nat) (key0 : K) (f : Prog V (K × X) Y)
    (name : Option String) (k : K) (x : X) (m : FModule V X Y) (h : functionInit fuel key0 f name k x = .ok m)
    (g : Prog V (K × X) Y) (hg : initCall fuel key0 f name k x = .ok g)
    (hnp : NestPlanted varS f m.variables) (hne : name = none ∨ ∃ n, (m.variables n).isSome)
    (hcall : ∃ q, m.callAndUpdate fuel x = .ok q)
    (pre : K × X' → K × X) (post : K × X' → Y → Y') (key : K) (x' : X') (hpre : pre (key, x') = (k, x))
    (oname : Option String) :
    ∃ M, functionInit fuel key0 (.inline pre g post) oname key x' = .ok M ∧
      M.name = oname ∧ M.variables = inherit name m.variables ∧
      ∀ (fuel' : Nat) (vars : Dict V) (x2 : X'), (∀ n, (vars n).isSome = (m.variables n).isSome) →
        (∃ y, run fuel' f (pre (key0, x2)) = .ok y) →
        (M.replace (inherit name vars)).callAndUpdate fuel' x2 =
          ((m.replace vars).callAndUpdate fuel' (pre (key0, x2)).2).map
            (fun q => (post (key0, x2) q.1, inherit name q.2)) := by
  obtain ⟨me, r, hme, hr, rfl, hasg⟩ := initCall_ok h hg
  obtain ⟨hjv, hja, hjk⟩ := jaxpr_facts h hnp
  have hrv : Foreign varS r := foreign_reap_exclusive rfl hr
  have hra : Foreign asgS r := foreign_reap_exclusive rfl hr
  have hnd : (me.map (·.1)).Nodup := metaOf_nil_keys hme
  have hmn : m.name = name := by obtain ⟨_, _, _, _, _, _, -, -, -, -, -, -, -, hm⟩ := functionInit_ok h; rw [hm]
  have hrd : run fuel r (k, x) = .ok m.variables := by
    obtain ⟨r2, _, _, _, _, _, h1, h2, -⟩ := functionInit_ok h
    rw [hr] at h1; cases h1; exact h2
  have hmv : HasNames m.variables (me.map (·.1)) := (run_reap_f hme hr fuel (k, x)).2 _ hrd
  have hne' : m.name = none ∨ me.map (·.1) ≠ [] := by
    rw [hmn]
    rcases hne with h | ⟨n, hn⟩
    · exact .inl h
    · refine .inr (fun e => ?_)
      have := (hmv n).1 hn
      rw [e] at this; simp at this
  obtain ⟨q, hq⟩ := hcall
  obtain ⟨y, as, hj⟩ : ∃ y as, run fuel m.jaxpr (m.variables, x) = .ok (y, as) := by
    simp only [FModule.callAndUpdate] at hq
    rcases hj : run fuel m.jaxpr (m.variables, x) with e | ⟨y, as⟩ <;> rw [hj] at hq
    · simp at hq
    · exact ⟨y, as, rfl⟩
  obtain ⟨mo, h1⟩ := metaOf_nested hrv hjv hnd
  obtain ⟨R, h2, h3⟩ := run_reap_nested hrv hjv hne' fuel k x m.variables y as hmv hrd hj
  obtain ⟨st, h4⟩ := plantCheck_nested hrv hjv hnd (inherit m.name m.variables)
  obtain ⟨⟨ma, h5⟩, h6⟩ := accepted_nested hra hja hnd (inherit m.name m.variables)
  obtain ⟨M, hM, hMv, hMn⟩ := functionInit_of (key0 := key0) (f := .inline pre (nestedBody r (me.map (·.1)) m) post)
    (fuel := fuel) oname (key := key) (x := x') (y := post (key, x') y) (R := R) (me := mo) (st := st) (ma := ma)
    (st' := []) (vars := inherit m.name m.variables)
    (by simp only [metaOf]; exact h1)
    (by simp only [reapT, run, hpre, h2, except_map_ok]) h3
    (by simp only [plantCheck]; exact h4)
    (by simp only [plantT, metaOf]; exact h5)
    (by simp only [plantT, plantCheck]; exact h6)
  rw [hmn] at hMv
  refine ⟨M, hM, hMn, hMv, ?_⟩
  intro fuel' vars x2 hvn hrun
  have hv : HasNames vars (me.map (·.1)) := fun n => by rw [hvn n]; exact hmv n
  obtain ⟨d, hd⟩ := (run_reap_f hme hr fuel' (pre (key0, x2))).1 hrun
  have hdn := (run_reap_f hme hr fuel' (pre (key0, x2))).2 d hd
  have hraw := run_jaxpr_raw hM (inherit name vars) fuel' x2
  have hMa : ∀ n, n ∈ M.assigned ↔ (inherit name vars n).isSome := by
    intro n
    rw [init_assigned hM n]
    simp only [nestedBody, sites, declares_append, foreign_declares hra, foreign_declares hja,
      foreign_declares (foreign_retag m.name (me.map (·.1))), Option.or_none]
    rw [declares_assign m.name (me.map (·.1)) vars hv n, hmn]
  have hfindM : M.assigned.find? (fun n => (inherit name vars n).isNone) = none := by
    rw [List.find?_eq_none]
    intro n hn
    have := (hMa n).1 hn
    rw [Option.isSome_iff_ne_none] at this
    simpa using this
  have hfind : m.assigned.find? (fun n => (vars n).isNone) = none := by
    rw [List.find?_eq_none]
    intro n hn
    have := hasg n hn
    rw [← hvn, Option.isSome_iff_ne_none] at this
    simpa using this
  obtain ⟨herr, hok⟩ := run_cau_nested hrv hjv hra hja hne' fuel' (pre (key0, x2)).1 (pre (key0, x2)).2 d
    m.variables vars hdn hmv hv hd
  rw [hMv] at hraw
  simp only [plantT, reapT, run] at hraw
  rw [hmn] at herr hok
  rcases hj2 : run fuel' m.jaxpr (vars, (pre (key0, x2)).2) with e | ⟨y2, as2⟩
  · rw [show (pre (key0, x2)) = ((pre (key0, x2)).1, (pre (key0, x2)).2) from rfl, herr e hj2] at hraw
    simp only [except_map_error] at hraw
    simp only [FModule.callAndUpdate, FModule.replace, hraw, hj2, except_map_error]
  · have hmerge : HasNames (mergeVars m.assigned vars as2) (me.map (·.1)) := by
      intro n
      simp only [mergeVars, List.contains_iff_mem]
      by_cases hn : n ∈ m.assigned
      · rw [if_pos hn, hjk fuel' _ _ _ hj2 n hn, ← hv n, hvn n, hasg n hn]
      · rw [if_neg hn]; exact hv n
    obtain ⟨R2, e1, e2⟩ := hok y2 as2 hj2 hmerge
    rw [show (pre (key0, x2)) = ((pre (key0, x2)).1, (pre (key0, x2)).2) from rfl, e1] at hraw
    simp only [except_map_ok, e2] at hraw
    simp only [FModule.callAndUpdate, FModule.replace, hraw, hj2, hfindM, hfind, except_map_ok, Except.ok.injEq,
      Prod.mk.injEq, true_and]
    change _ = inherit name (mergeVars m.assigned vars as2)
    funext n
    by_cases hn : n ∈ M.assigned
    · simp only [List.contains_iff_mem, hn, if_true]
    · have h1 : inherit name vars n = none := by
        have := mt (hMa n).2 hn
        simpa using this
      simp only [List.contains_iff_mem, hn, if_false, h1]
      cases name with
      | none =>
        simp only [inherit] at h1 ⊢
        have hna : n ∉ m.assigned := fun h => by
          have := hasg n h
          rw [← hvn, h1] at this; simp at this
        simp [mergeVars, hna, h1]
      | some nm =>
        simp only [inherit] at h1 ⊢
        by_cases e : n = nm
        · simp [e] at h1
        · simp [e]

/-- The names of the variables of a module never change. -/
theorem callAndUpdate_names {V K X Y : Type} {fuel : Nat} {key0 : K} {f : Prog V (K × X) Y}
    {name : Option String} {key : K} {x : X} {m : FModule V X Y}
    (h : functionInit fuel key0 f name key x = .ok m) (hnp : NestPlanted varS f m.variables)
    (fuel' : Nat) (vars : Dict V) (x' : X) (y : Y) (vars' : Dict V)
    (hc : (m.replace vars).callAndUpdate fuel' x' = .ok (y, vars')) :
    ∀ n, (vars' n).isSome = (vars n).isSome := by
  obtain ⟨-, -, hjk⟩ := jaxpr_facts h hnp
  intro n
  simp only [FModule.callAndUpdate, FModule.replace] at hc
  rcases hj : run fuel' m.jaxpr (vars, x') with e | ⟨y2, as⟩ <;> rw [hj] at hc
  · simp at hc
  rcases hf : m.assigned.find? (fun n => (vars n).isNone) with _ | k <;> simp only [hf] at hc
  · simp only [Except.ok.injEq, Prod.mk.injEq] at hc
    rw [← hc.2]
    simp only [List.contains_iff_mem]
    by_cases hn : n ∈ m.assigned
    · rw [List.find?_eq_none] at hf
      have h1 := hf n hn
      have h2 : (vars n).isSome := by rw [Option.isSome_iff_ne_none]; simpa using h1
      rw [if_pos hn, hjk fuel' _ _ _ hj n hn, h2]
    · rw [if_neg hn]
  · simp at hc

/-- C68: after any history of updates the outer module holds the state that the inner module has after the same
history. -/
theorem nested_updates {V K X Y X' Y' : Type} (fuel : Nat) (key0 : K) (f : Prog V (K × X) Y)
    (name : Option String) (k : K) (x : X) (m : FModule V X Y) (h : functionInit fuel key0 f name k x = .ok m)
    (g : Prog V (K × X) Y) (hg : initCall fuel key0 f name k x = .ok g)
    (hnp : NestPlanted varS f m.variables) (hne : name = none ∨ ∃ n, (m.variables n).isSome)
    (hcall : ∃ q, m.callAndUpdate fuel x = .ok q)
    (pre : K × X' → K × X) (post : K × X' → Y → Y') (key : K) (x' : X') (hpre : pre (key, x') = (k, x))
    (oname : Option String) :
    ∃ M, functionInit fuel key0 (.inline pre g post) oname key x' = .ok M ∧
      ∀ (fuel' : Nat) (xs : List X'), (∀ x2 ∈ xs, ∃ y, run fuel' f (pre (key0, x2)) = .ok y) →
        (updates fuel' M xs).map (fun M' => (M'.name, M'.variables)) =
          (updates fuel' m (xs.map (fun x2 => (pre (key0, x2)).2))).map
            (fun m' => (oname, inherit name m'.variables)) := by
  obtain ⟨M, hM, hMn, hMv, hcau⟩ := nested_inherits fuel key0 f name k x m h g hg hnp hne hcall pre post key x' hpre
    oname
  refine ⟨M, hM, fun fuel' xs hxs => ?_⟩
  have aux : ∀ (xs : List X') (vars : Dict V), (∀ x2 ∈ xs, ∃ y, run fuel' f (pre (key0, x2)) = .ok y) →
      (∀ n, (vars n).isSome = (m.variables n).isSome) →
      (updates fuel' (M.replace (inherit name vars)) xs).map (fun M' => (M'.name, M'.variables)) =
        (updates fuel' (m.replace vars) (xs.map (fun x2 => (pre (key0, x2)).2))).map
          (fun m' => (oname, inherit name m'.variables)) := by
    intro xs
    induction xs with
    | nil => intro vars _ _; simp [updates, FModule.replace, hMn]
    | cons x2 xs ih =>
      intro vars hxs hv
      simp only [List.map_cons, updates, FModule.update, hcau fuel' vars x2 hv (hxs x2 (by simp))]
      rcases hc : (m.replace vars).callAndUpdate fuel' (pre (key0, x2)).2 with e | ⟨y, vars'⟩
      · rfl
      · simp only [except_map_ok]
        have hn := callAndUpdate_names h hnp fuel' vars _ y vars' hc
        exact ih vars' (fun z hz => hxs z (by simp [hz])) (fun n => by rw [hn n, hv n])
  have := aux xs m.variables hxs (fun n => rfl)
  rw [← hMv] at this
  exact this

/-- C68, negative: a module *without* variables that has a name cannot be used inside a stateful function:
`init` of the outer function does not tag the module as a variable (function.py:292) but its call still assigns
it (module.py:144-147), so every call of the outer module raises `No variable declared for assign`. -/
theorem named_stateless_raises {V K X Y X' Y' : Type} (fuel : Nat) (key0 : K) (f : Prog V X Y) (name : String)
    (hf : declares reapS name (sites f) = none)
    (g : Prog V (K × X) Y) (hg : statelessInitCall f (some name) = .ok g) (pre : K × X' → K × X)
    (post : K × X' → Y → Y') (oname : Option String) (key : K) (x' : X') (M : FModule V X' Y')
    (hM : functionInit fuel key0 (.inline pre g post) oname key x' = .ok M) (fuel' : Nat) (x2 : X') :
    (∃ n, M.callAndUpdate fuel' x2 = .error (.noVariable n)) ∨
    ∃ e, M.callAndUpdate fuel' x2 = .error (.running e) := by
  simp only [statelessInitCall, nestedModule, statelessInit, List.find?_nil, Except.ok.injEq] at hg
  subst hg
  have h1 : asgS.active assignTag name = true := by rw [← dispatch_handle]; exact asgS_handle name
  have h2 : reapS.active assignTag name = false := by
    rw [← dispatch_ne_handle]; simp [Settings.dispatch, reapS, asg_tag_ne]
  rcases unknown_assign fuel key0 _ oname key x' M hM name
    (by simp [nestedBody, sites, declares_append, assignModule, assignP, declares, Site.declares, h1, Option.isSome_or])
    (by simp [nestedBody, sites, declares_append, assignModule, assignP, declares, Site.declares, h2, hf, retag,
          retagModule]) fuel' x2 with ⟨n, h, -⟩ | ⟨e, h, -⟩
  · exact .inl ⟨n, h⟩
  · exact .inr ⟨e, h⟩

theorem occurrences_nested {V K X Y : Type} (r : Prog V (K × X) (Dict V)) (ns : List String) (m : FModule V X Y)
    (hm : m.name = none) (n : String) (hn : n ∈ ns) : Mode.strict ∈ occurrences reapS n (sites (nestedBody r ns m)) := by
  have h1 : Mode.strict ∈ occurrences reapS n (sites (retagAll ns : Prog V (Dict V) (Dict V))) := by
    have ha : reapS.active variableTag n = true := by rw [← dispatch_handle]; exact reapS_handle n
    induction ns with
    | nil => simp at hn
    | cons k ns ih =>
      simp only [retagAll, variableP, sites, occurrences, List.cons_append, List.nil_append, List.filterMap_cons]
      rcases List.mem_cons.1 hn with rfl | hn
      · simp [Site.declares, ha]
      · have := ih hn
        simp only [occurrences] at this
        split
        · exact this
        · exact List.mem_cons_of_mem _ this
  simp only [nestedBody, hm, retag, sites, occurrences, List.filterMap_append, List.mem_append] at h1 ⊢
  exact .inr (.inl h1)

/-- C68: two modules without a name that have a variable with the same name cannot be used in the same function:
`init` of the function raises (they have to be given names). -/
theorem shared_names_raise {V K X1 Y1 X2 Y2 X' Y' Z : Type} (fuel : Nat) (key0 : K)
    (f1 : Prog V (K × X1) Y1) (k1 : K) (x1 : X1) (m1 : FModule V X1 Y1) (h1 : functionInit fuel key0 f1 none k1 x1 = .ok m1)
    (g1 : Prog V (K × X1) Y1) (hg1 : initCall fuel key0 f1 none k1 x1 = .ok g1)
    (f2 : Prog V (K × X2) Y2) (k2 : K) (x2 : X2) (m2 : FModule V X2 Y2) (h2 : functionInit fuel key0 f2 none k2 x2 = .ok m2)
    (g2 : Prog V (K × X2) Y2) (hg2 : initCall fuel key0 f2 none k2 x2 = .ok g2)
    (n : String) (hn1 : (m1.variables n).isSome) (hn2 : (m2.variables n).isSome)
    (pre1 : K × X' → K × X1) (post1 : K × X' → Y1 → Z) (pre2 : Z → K × X2) (post2 : Z → Y2 → Y')
    (oname : Option String) (key : K) (x' : X') :
    ∃ e, functionInit fuel key0 (.seq (.inline pre1 g1 post1) (.inline pre2 g2 post2)) oname key x' = .error (.tracing e) := by
  obtain ⟨me1, r1, a1, b1, rfl, -⟩ := initCall_ok h1 hg1
  obtain ⟨me2, r2, a2, b2, rfl, -⟩ := initCall_ok h2 hg2
  have hmem : ∀ {X Y : Type} {f : Prog V (K × X) Y} {k : K} {x : X} {m : FModule V X Y} {me : Meta},
      functionInit fuel key0 f none k x = .ok m → metaOf reapS f [] = .ok me → (m.variables n).isSome →
      m.name = none ∧ n ∈ me.map (·.1) := by
    intro X Y f k x m me h hme hn
    refine ⟨by obtain ⟨_, _, _, _, _, _, -, -, -, -, -, -, -, hm⟩ := functionInit_ok h; rw [hm], ?_⟩
    rw [init_variable_names fuel key0 f none k x m h n, ← metaOf_nil_get hme] at hn
    exact (Meta.get_isSome_iff _ _).1 hn
  obtain ⟨c1, d1⟩ := hmem h1 a1 hn1
  obtain ⟨c2, d2⟩ := hmem h2 a2 hn2
  have o1 := occurrences_nested r1 _ m1 c1 n d1
  have o2 := occurrences_nested r2 _ m2 c2 n d2
  rcases hc : callAndReap reapS (Prog.seq (.inline pre1 (nestedBody r1 (me1.map (·.1)) m1) post1)
      (.inline pre2 (nestedBody r2 (me2.map (·.1)) m2) post2)) with e | t
  · exact ⟨e, by simp only [functionInit, reap, hc, except_map_error]⟩
  · exfalso
    have hs : occurrences reapS n (sites (Prog.seq (.inline pre1 (nestedBody r1 (me1.map (·.1)) m1) post1)
        (.inline pre2 (nestedBody r2 (me2.map (·.1)) m2) post2))) =
        occurrences reapS n (sites (nestedBody r1 (me1.map (·.1)) m1)) ++
        occurrences reapS n (sites (nestedBody r2 (me2.map (·.1)) m2)) := by
      simp [sites, occurrences]
    have := strict_unique_site reapS n .strict rfl _ t hc (by rw [hs]; exact List.mem_append_left _ o1)
    rw [hs] at this
    have hl := congrArg List.length this
    have l1 := List.length_pos_of_mem o1
    have l2 := List.length_pos_of_mem o2
    simp only [List.length_append, List.length_singleton] at hl
    omega

/-! ### Witnesses -/

namespace Ex

/-- `def f(x, init_key): w = variable(init_key + 1, 'w'); b = variable(7, 'b'); assign(w + x, 'w');
return w * x + b`, as in `Witness`. -/
def inner : Prog Nat (Nat × Nat) Nat :=
  .seq (variableP "w" .strict (fun a => .leaf (a.1 + 1)) (fun a v => (a.2, leafNum v)))
    (.seq (variableP "b" .strict (fun _ => .leaf 7) (fun a v => (a, leafNum v)))
      (.seq (assignP "w" .clobber (fun a => .leaf (a.1.2 + a.1.1)) (fun a _ => a))
        (.pure (fun a => .ok (a.1.2 * a.1.1 + a.2)))))
where leafNum : Val Nat → Nat
  | .leaf n => n
  | _ => 0

theorem inner_nests (P : Dict Nat) : NestPlanted varS inner P := ⟨trivial, trivial, trivial, trivial⟩

/-- The hypotheses of `nested_inherits` are met by `inner`, without and with a name, and the conclusion is
what one computes: with key 3 and argument 5 the state is `w = 4, b = 7`; the call on 10 gives
`4 * 10 + 7` plus the `1` added by the outer function and leaves `w = 14`. -/
example : ∃ (m : FModule Nat Nat Nat) (g : Prog Nat (Nat × Nat) Nat), functionInit 1 0 inner none 3 5 = .ok m ∧
    initCall 1 0 inner none 3 5 = .ok g ∧ (∃ q, m.callAndUpdate 1 5 = .ok q) ∧
    ∃ M, functionInit 1 0 (.inline id g (fun (_ : Nat × Nat) y => y + 1)) none 3 5 = .ok M ∧
      M.variables "w" = some (.leaf 4) ∧ M.variables "b" = some (.leaf 7) ∧
      ∃ v, M.callAndUpdate 1 10 = .ok (48, v) ∧ v "w" = some (.leaf 14) ∧ v "b" = some (.leaf 7) :=
  ⟨_, _, rfl, rfl, ⟨_, rfl⟩, _, rfl, rfl, rfl, _, rfl, rfl, rfl⟩

example : ∃ (m : FModule Nat Nat Nat) (g : Prog Nat (Nat × Nat) Nat), functionInit 1 0 inner (some "f") 3 5 = .ok m ∧
    initCall 1 0 inner (some "f") 3 5 = .ok g ∧ (∃ q, m.callAndUpdate 1 5 = .ok q) ∧
    (∃ n, (m.variables n).isSome) ∧
    ∃ M, functionInit 1 0 (.inline id g (fun (_ : Nat × Nat) y => y + 1)) none 3 5 = .ok M ∧
      M.variables "w" = none ∧ M.variables "f" = some (.dict m.variables) :=
  ⟨_, _, rfl, rfl, ⟨_, rfl⟩, ⟨"w", rfl⟩, _, rfl, rfl, rfl⟩

/-- `named_stateless_raises`: the outer `init` succeeds, the call raises. -/
example : ∃ (g : Prog Nat (Nat × Nat) Nat) (M : FModule Nat Nat Nat),
    statelessInitCall (.pure (fun x : Nat => .ok (2 * x))) (some "double") = .ok g ∧
    functionInit 1 0 (.inline id g (fun (_ : Nat × Nat) y => y)) none 3 5 = .ok M ∧
    M.callAndUpdate 1 10 = .error (.noVariable "double") := ⟨_, _, rfl, rfl, rfl⟩

/-- `shared_names_raise`. -/
example : ∃ (m : FModule Nat Nat Nat) (g : Prog Nat (Nat × Nat) Nat), functionInit 1 0 inner none 3 5 = .ok m ∧
    initCall 1 0 inner none 3 5 = .ok g ∧ (m.variables "w").isSome ∧
    ∃ n, functionInit 1 0 (.seq (.inline id g (fun a y => (a.1, y))) (.inline id g (fun _ y => y))) none 3 5 =
      .error (.tracing (.alreadyReaped n)) := ⟨_, _, rfl, rfl, rfl, _, rfl⟩

end Ex

end Verif.State
