/-
C88: a network written as a function that calls templates (oryx/experimental/nn/base.py:305-354) is a module of its
layers.
-/
import Verif.State.LayerStmt

namespace Verif.State

open Verif.Harvest

/-! ### The state of a network -/

theorem netNames_cons {V K X : Type} (L : Line V K X) (Ls : List (Line V K X)) :
    netNames (L :: Ls) = places L.name ["params", "state"] ++ netNames Ls := by
  simp only [netNames]
  cases L.name <;> rfl

theorem netState_cons {V K X : Type} (L : Line V K X) (Ls : List (Line V K X)) (l : LayerVars V) (ls : List (LayerVars V))
    (n : String) : netState (L :: Ls) (l :: ls) n = (inherit L.name l.dict n).or (netState Ls ls n) := by
  simp only [netState]
  rcases L.name with _ | m
  · simp only [inherit, LayerVars.dict]
    by_cases h1 : n = "params"
    · simp [h1]
    · by_cases h2 : n = "state" <;> simp [h1, h2]
  · simp only [inherit]
    by_cases h1 : n = m <;> simp [h1]

theorem netState_some {V K X : Type} : ∀ (Ls : List (Line V K X)) (ls : List (LayerVars V)), ls.length = Ls.length →
    ∀ n, (netState Ls ls n).isSome ↔ n ∈ netNames Ls
  | [], [], _, n => by simp [netState, netNames]
  | [], _ :: _, h, _ => by simp at h
  | _ :: _, [], h, _ => by simp at h
  | L :: Ls, l :: ls, h, n => by
    rw [netState_cons, netNames_cons, Option.isSome_or, Bool.or_eq_true, netState_some Ls ls (by simpa using h) n,
      List.mem_append, inherit_places _ _ _ (dict_names l) n]

theorem over_netState {V K X : Type} (L : Line V K X) (Ls : List (Line V K X)) (hnd : (netNames (L :: Ls)).Nodup)
    (D : Dict V) (l : LayerVars V) (ls : List (LayerVars V)) (hl : ls.length = Ls.length) :
    over (over D (inherit L.name l.dict)) (netState Ls ls) = over D (netState (L :: Ls) (l :: ls)) := by
  funext n
  rw [netNames_cons, List.nodup_append] at hnd
  simp only [over, netState_cons]
  by_cases h1 : n ∈ netNames Ls
  · have h2 : inherit L.name l.dict n = none := by
      have := (inherit_places L.name _ _ (dict_names l) n).not.2 (fun h => hnd.2.2 n h n h1 rfl)
      simpa using this
    simp [h2]
  · have h2 : netState Ls ls n = none := by simpa using (netState_some Ls ls hl n).not.2 h1
    simp [h2]

theorem over_empty {V : Type} (D : Dict V) : over D (fun _ => none) = D := by
  funext n; simp [over]

/-! ### The network as a stateful function -/

theorem netInit_length {V K X : Type} (k : K) : ∀ (Ls : List (Line V K X)) (x z : X) (ls ls' : List (LayerVars V)),
    netInit k Ls x = .ok (z, ls, ls') → ls.length = Ls.length ∧ ls'.length = Ls.length
  | [], x, z, ls, ls', h => by
    simp only [netInit, Except.ok.injEq, Prod.mk.injEq] at h
    obtain ⟨-, rfl, rfl⟩ := h
    simp
  | L :: Ls, x, z, ls, ls', h => by
    simp only [netInit] at h
    rcases h1 : L.T.fresh (L.key k) (L.T.specOf x) with e | l <;> simp only [h1, reduceCtorEq] at h
    rcases h2 : L.T.callAndUpdate l x with e | ⟨y, l'⟩ <;> simp only [h2, reduceCtorEq] at h
    rcases h3 : netInit k Ls y with e | ⟨z', m, m'⟩ <;> simp only [h3, reduceCtorEq, Except.ok.injEq, Prod.mk.injEq] at h
    obtain ⟨-, rfl, rfl⟩ := h
    have := netInit_length k Ls y z' m m' h3
    simp [this.1, this.2]

theorem netCall_length {V K X : Type} : ∀ (Ls : List (Line V K X)) (ls : List (LayerVars V)) (x z : X)
    (ls' : List (LayerVars V)), netCall Ls ls x = some (z, ls') → ls'.length = Ls.length
  | [], ls, x, z, ls', h => by
    simp only [netCall, Option.some.injEq, Prod.mk.injEq] at h
    obtain ⟨-, rfl⟩ := h
    rfl
  | L :: Ls, [], x, z, ls', h => by simp [netCall] at h
  | L :: Ls, l :: ls, x, z, ls', h => by
    simp only [netCall] at h
    rcases h2 : L.T.callAndUpdate l x with e | ⟨y, l'⟩ <;> simp only [h2, reduceCtorEq] at h
    rcases h3 : netCall Ls ls y with _ | ⟨z', m⟩ <;>
      simp only [h3, Option.map_none, Option.map_some, reduceCtorEq, Option.some.injEq, Prod.mk.injEq] at h
    obtain ⟨-, rfl⟩ := h
    simp [netCall_length Ls ls y z' m h3]

theorem exec_net_fresh {V K X : Type} (fuel : Nat) (k : K) : ∀ (Ls : List (Line V K X)) (x : X) (D W : Dict V),
    (netNames Ls).Nodup →
    (net Ls).exec fuel (fun _ => none) (k, x) (D, W) =
      match netInit k Ls x with
      | .error e => .error (.running e)
      | .ok (z, ls, ls') => .ok (z, over D (netState Ls ls), over W (netState Ls ls'))
  | [], x, D, W, _ => by
    simp only [net, Stmt.exec, run, netInit, netState]
    rw [over_empty, over_empty]
  | L :: Ls, x, D, W, hnd => by
    have hnd' : (netNames Ls).Nodup := by rw [netNames_cons, List.nodup_append] at hnd; exact hnd.2.1
    simp only [net, Stmt.exec, exec_fresh, netInit]
    rcases h1 : L.T.fresh (L.key k) (L.T.specOf x) with e | l
    · rfl
    · simp only
      rcases h2 : L.T.callAndUpdate l x with e | ⟨y, l'⟩
      · rfl
      · simp only
        rw [exec_net_fresh fuel k Ls y _ _ hnd']
        rcases h3 : netInit k Ls y with e | ⟨z, ls, ls'⟩
        · rfl
        · obtain ⟨hl, hl'⟩ := netInit_length k Ls y z ls ls' h3
          simp only
          rw [over_netState L Ls hnd D l ls hl, over_netState L Ls hnd W l' ls' hl']

/-- Every layer of the network is kept. -/
def KeptAll {V K X : Type} (held : Dict V) : List (Line V K X) → List (LayerVars V) → Prop
  | [], [] => True
  | L :: Ls, l :: ls => Kept held L.name l ∧ KeptAll held Ls ls
  | _, _ => False

theorem keptAll_of_agree {V K X : Type} (held : Dict V) : ∀ (Ls : List (Line V K X)) (ls : List (LayerVars V)),
    ls.length = Ls.length → (netNames Ls).Nodup → (∀ n ∈ netNames Ls, held n = netState Ls ls n) → KeptAll held Ls ls
  | [], [], _, _, _ => trivial
  | [], _ :: _, h, _, _ => by simp at h
  | _ :: _, [], h, _, _ => by simp at h
  | L :: Ls, l :: ls, hl, hnd, h => by
    rw [netNames_cons] at hnd h
    rw [List.nodup_append] at hnd
    have hh : ∀ n ∈ places L.name ["params", "state"], held n = inherit L.name l.dict n := by
      intro n hn
      rw [h n (List.mem_append_left _ hn), netState_cons]
      have := (inherit_places L.name _ _ (dict_names l) n).2 hn
      obtain ⟨v, hv⟩ := Option.isSome_iff_exists.1 this
      simp [hv]
    refine ⟨?_, keptAll_of_agree held Ls ls (by simpa using hl) hnd.2.1 fun n hn => ?_⟩
    · rcases hL : L.name with _ | m <;> rw [hL] at hh
      · exact ⟨hh "params" (by simp [places]), hh "state" (by simp [places])⟩
      · have := hh m (by simp [places])
        simpa [inherit, Kept] using this
    · rw [h n (List.mem_append_right _ hn), netState_cons]
      have := (inherit_places L.name _ _ (dict_names l) n).not.2 (fun h' => hnd.2.2 n h' n hn rfl)
      rw [Bool.not_eq_true, Option.isSome_eq_false_iff, Option.isNone_iff_eq_none] at this
      simp [this]

theorem exec_net_kept {V K X : Type} (fuel : Nat) (key0 : K) (held : Dict V) : ∀ (Ls : List (Line V K X))
    (ls : List (LayerVars V)) (x : X) (D W : Dict V), (netNames Ls).Nodup → (∀ L ∈ Ls, Fits key0 L) → KeptAll held Ls ls →
    ls.length = Ls.length →
    ((net Ls).exec fuel held (key0, x) (D, W)).toOption =
      (netCall Ls ls x).map (fun q => (q.1, over D (netState Ls ls), over W (netState Ls q.2)))
  | [], ls, x, D, W, _, _, _, _ => by
    simp only [net, Stmt.exec, run, netCall, netState, Option.map_some, Except.toOption]
    rw [over_empty, over_empty]
  | L :: Ls, [], x, D, W, _, _, hk, _ => hk.elim
  | L :: Ls, l :: ls, x, D, W, hnd, hf, hk, hl => by
    have hnd' : (netNames Ls).Nodup := by rw [netNames_cons, List.nodup_append] at hnd; exact hnd.2.1
    simp only [net, Stmt.exec, exec_kept L.T L.name _ _ fuel held l hk.1, netCall]
    rcases h2 : L.T.callAndUpdate l x with e | ⟨y, l'⟩
    · rcases h1 : L.T.fresh (L.key key0) (L.T.specOf x) with e | l0 <;> rfl
    · obtain ⟨l0, h1⟩ := hf L (List.mem_cons_self ..) l x (y, l') h2
      simp only [h1]
      rw [exec_net_kept fuel key0 held Ls ls y _ _ hnd' (fun M hM => hf M (List.mem_cons_of_mem _ hM)) hk.2
        (by simpa using hl)]
      rcases h3 : netCall Ls ls y with _ | ⟨z, ls'⟩
      · rfl
      · have hl' := netCall_length Ls ls y z ls' h3
        simp only [Option.map_some]
        rw [over_netState L Ls hnd D l ls (by simpa using hl), over_netState L Ls hnd W l' ls' hl']

theorem net_made {V K X : Type} (key0 : K) (Ls : List (Line V K X)) : (net Ls).Made key0 := by
  induction Ls with
  | nil => exact ⟨trivial, trivial⟩
  | cons L Ls ih => exact ⟨⟨.inr ⟨_, L.T, L.name, rfl⟩, .inr ⟨_, L.T, L.name, rfl⟩⟩, ih⟩

theorem net_declared {V K X : Type} (Ls : List (Line V K X)) : (net Ls).declared = netNames Ls := by
  induction Ls with
  | nil => rfl
  | cons L Ls ih =>
    rw [netNames_cons, ← ih]
    simp only [net, Tmpl.stmt, Stmt.declared, Tmpl.inner, List.append_nil]

theorem net_modules {V K X : Type} (Ls : List (Line V K X)) :
    (net Ls).modules = Ls.map (fun L => (L.name, ["params", "state"])) := by
  induction Ls with
  | nil => rfl
  | cons L Ls ih =>
    rw [List.map_cons, ← ih]
    simp only [net, Tmpl.stmt, Stmt.modules, Tmpl.inner, List.append_nil, List.singleton_append]

theorem net_assigns {V K X : Type} (vs : List String) (ms : List (Option String × List String)) (Ls : List (Line V K X))
    (h : ∀ L ∈ Ls, (L.name, ["params", "state"]) ∈ ms) : (net Ls).Assigns vs ms := by
  induction Ls with
  | nil => exact trivial
  | cons L Ls ih =>
    exact ⟨⟨trivial, h L (List.mem_cons_self ..)⟩, ih fun M hM => h M (List.mem_cons_of_mem _ hM)⟩

theorem slice_kept {V : Type} {held : Dict V} {name : Option String} {l : LayerVars V} (h : Kept held name l) :
    ∃ d, slice name ["params", "state"] held = some d ∧ ∀ n ∈ ["params", "state"], (d n).isSome := by
  cases name with
  | none =>
    have h1 := h.1
    have h2 := h.2
    refine ⟨held, by simp [slice, h1, h2], ?_⟩
    simp [h1, h2]
  | some n =>
    have h1 : held n = some (.dict l.dict) := h
    exact ⟨l.dict, by simp [slice, h1], fun k hk => (dict_names l k).2 hk⟩

theorem net_holds {V K X : Type} (Ls : List (Line V K X)) (ls : List (LayerVars V)) (hl : ls.length = Ls.length)
    (hnd : (netNames Ls).Nodup) : (net Ls).Holds (netState Ls ls) := by
  refine ⟨fun n => by rw [net_declared]; exact netState_some Ls ls hl n, ?_⟩
  rw [net_modules]
  have hk := keptAll_of_agree (netState Ls ls) Ls ls hl hnd (fun _ _ => rfl)
  have : ∀ (held : Dict V) (Ls : List (Line V K X)) (ls : List (LayerVars V)), KeptAll held Ls ls →
      ∀ L ∈ Ls, ∃ l, Kept held L.name l := by
    intro held Ls
    induction Ls with
    | nil => intro ls _ L h; simp at h
    | cons M Ms ih =>
      intro ls h L hL
      cases ls with
      | nil => exact h.elim
      | cons l ls =>
        rcases List.mem_cons.1 hL with rfl | hL
        · exact ⟨l, h.1⟩
        · exact ih ls h.2 L hL
  intro m hm
  obtain ⟨L, hL, rfl⟩ := List.mem_map.1 hm
  obtain ⟨l, hl⟩ := this _ Ls ls hk L hL
  exact slice_kept hl

/-! ### The property -/

/-- C88: initialising a function that calls templates makes every layer, for the output of the layers before it, and
keeps it under its name, or as the variables `params` and `state` if it has no name. -/
theorem net_init {V K X : Type} (fuel : Nat) (key0 : K) (Ls : List (Line V K X)) (hnd : (netNames Ls).Nodup)
    (oname : Option String) (key : K) (x z : X) (ls ls' : List (LayerVars V)) (h : netInit key Ls x = .ok (z, ls, ls')) :
    ∃ M, functionInit fuel key0 (net Ls).prog oname key x = .ok M ∧ M.name = oname ∧ M.variables = netState Ls ls := by
  have he := exec_net_fresh fuel key Ls x (fun _ => none) (fun _ => none) hnd
  rw [h] at he
  simp only at he
  obtain ⟨M, hM, hMn, hMv, -⟩ := stateful_init fuel key0 (net Ls) (net_made key0 Ls) (by rw [net_declared]; exact hnd)
    oname key x z _ _ he
  refine ⟨M, hM, hMn, ?_⟩
  rw [hMv]
  funext n
  simp [over]

/-- C88: calling the module, in any state of its layers, calls the layers one after the other; the new state is that
of the layers, each updated with its own input.  It fails exactly if one of the layers does. -/
theorem net_call {V K X : Type} (fuel : Nat) (key0 : K) (Ls : List (Line V K X)) (hnd : (netNames Ls).Nodup)
    (hf : ∀ L ∈ Ls, Fits key0 L) (oname : Option String) (key : K) (x : X) (M : FModule V X X)
    (hM : functionInit fuel key0 (net Ls).prog oname key x = .ok M)
    (ls : List (LayerVars V)) (hl : ls.length = Ls.length) (fuel' : Nat) (x' : X) :
    ((M.replace (netState Ls ls)).callAndUpdate fuel' x').toOption =
      (netCall Ls ls x').map (fun q => (q.1, netState Ls q.2)) := by
  rw [stateful_call fuel key0 (net Ls) (net_made key0 Ls) ?_ oname key x M hM fuel' _ (net_holds Ls ls hl hnd) x']
  · have := exec_net_kept fuel' key0 (netState Ls ls) Ls ls x' (fun _ => none) (fun _ => none) hnd hf
      (keptAll_of_agree _ Ls ls hl hnd (fun _ _ => rfl)) hl
    rcases he : (net Ls).exec fuel' (netState Ls ls) (key0, x') (fun _ => none, fun _ => none) with e | ⟨z, D, W⟩
    · rw [he] at this
      rcases hc : netCall Ls ls x' with _ | q
      · rfl
      · rw [hc] at this; simp [Except.toOption] at this
    · rw [he] at this
      rcases hc : netCall Ls ls x' with _ | ⟨z', ls'⟩
      · rw [hc] at this; simp [Except.toOption] at this
      · rw [hc] at this
        simp only [Except.toOption, Option.map_some, Option.some.injEq, Prod.mk.injEq] at this
        obtain ⟨rfl, -, rfl⟩ := this
        simp only [except_map_ok, Except.toOption, Option.map_some, Option.some.injEq, Prod.mk.injEq, true_and]
        funext n
        have h1 := netState_some Ls ls hl n
        have h2 := netState_some Ls ls' (netCall_length Ls ls x' z ls' hc) n
        simp only [over]
        by_cases hn : n ∈ netNames Ls
        · obtain ⟨v, hv⟩ := Option.isSome_iff_exists.1 (h2.2 hn)
          simp [hv]
        · have h1' : netState Ls ls n = none := by simpa using h1.not.2 hn
          have h2' : netState Ls ls' n = none := by simpa using h2.not.2 hn
          simp [h1', h2']
  · refine net_assigns _ _ Ls fun L hL => ?_
    rw [net_modules]
    exact List.mem_map.2 ⟨L, hL, rfl⟩

/-- C88: after every history of updates the module holds the layers updated one after the other by what they were
given. -/
theorem net_updates {V K X : Type} (fuel : Nat) (key0 : K) (Ls : List (Line V K X)) (hnd : (netNames Ls).Nodup)
    (hf : ∀ L ∈ Ls, Fits key0 L) (oname : Option String) (key : K) (x z : X) (ls ls' : List (LayerVars V))
    (h : netInit key Ls x = .ok (z, ls, ls')) :
    ∃ M, functionInit fuel key0 (net Ls).prog oname key x = .ok M ∧ ∀ (fuel' : Nat) (xs : List X),
      (updates fuel' M xs).toOption.map (·.variables) = (netUpdates Ls ls xs).map (netState Ls) := by
  obtain ⟨M, hM, hMn, hMv⟩ := net_init fuel key0 Ls hnd oname key x z ls ls' h
  refine ⟨M, hM, fun fuel' xs => ?_⟩
  have aux : ∀ (xs : List X) (m : List (LayerVars V)), m.length = Ls.length →
      (updates fuel' (M.replace (netState Ls m)) xs).toOption.map (·.variables) =
        (netUpdates Ls m xs).map (netState Ls) := by
    intro xs
    induction xs with
    | nil => intro m _; rfl
    | cons x2 xs ih =>
      intro m hm
      have hc := net_call fuel key0 Ls hnd hf oname key x M hM m hm fuel' x2
      simp only [updates, FModule.update, netUpdates]
      rcases he : (M.replace (netState Ls m)).callAndUpdate fuel' x2 with e | ⟨y, v⟩
      · rw [he] at hc
        rcases hn : netCall Ls m x2 with _ | q
        · rfl
        · rw [hn] at hc; simp [Except.toOption] at hc
      · rw [he] at hc
        rcases hn : netCall Ls m x2 with _ | ⟨y', m'⟩
        · rw [hn] at hc; simp [Except.toOption] at hc
        · rw [hn] at hc
          simp only [Except.toOption, Option.map_some, Option.some.injEq, Prod.mk.injEq] at hc
          obtain ⟨-, rfl⟩ := hc
          exact ih m' (netCall_length Ls m x2 y' m' hn)
  have := aux xs ls (netInit_length key Ls x z ls ls' h).1
  rw [← hMv] at this
  exact this

theorem run_stmt_direct {V K S X Y A B : Type} (T : Tmpl V K S X Y) (name : Option String) (args : A → K × X)
    (cont : A → Y → B) (fuel : Nat) (a : A) :
    run fuel (T.stmt name args cont).prog a =
      match T.fresh (args a).1 (T.specOf (args a).2) with
      | .error e => .error e
      | .ok l =>
        match T.callAndUpdate l (args a).2 with
        | .error e => .error e
        | .ok (y, _) => .ok (cont a y) := by
  have h1 : run fuel (T.initP (K := K) name) (args a) = (T.fresh (args a).1 (T.specOf (args a).2)).map LayerVars.dict := by
    simp only [Tmpl.initP, run, Tmpl.build]
    rcases T.fresh (args a).1 (T.specOf (args a).2) with e | l
    · cases name <;> rfl
    · have hd : ∀ n, (if n = "state" then some ((l.dict "state").getD .zeros) else if n = "params" then
          some ((l.dict "params").getD .zeros) else l.dict n) = l.dict n := by
        intro n
        by_cases h1 : n = "state"
        · subst h1; rfl
        · by_cases h2 : n = "params"
          · subst h2; rfl
          · simp [h1, h2]
      cases name with
      | some n => rfl
      | none =>
        simp only [except_map_ok, variableP, run]
        exact congrArg Except.ok (funext hd)
  have hs : (T.stmt name args cont).prog = .seq (Stmt.init (T.inner name) args (fun a l => (a, l))).prog
      (Stmt.call (T.inner name) (fun p => p.2) (fun p => (args p.1).2) (fun p y => cont p.1 y)).prog := rfl
  rw [hs]
  simp only [run]
  rw [init_layer_prog]
  simp only [run, h1]
  rcases T.fresh (args a).1 (T.specOf (args a).2) with e | l
  · rfl
  · simp only [except_map_ok, except_bind_ok]
    rw [call_layer_prog]
    have hv : (Vars.of (T.inner (K := K) name).ns l.dict).1 = l.dict := vars_of_dict l l.dict rfl rfl
    have hl : LayerVars.ofDict l.dict = l := rfl
    simp only [run, Tmpl.callP, hv, hl]
    rcases T.callAndUpdate l (args a).2 with e | ⟨y, l'⟩
    · rfl
    · cases name <;> rfl

/-- C88: calling the function itself with a key, outside of `init`, makes the layers and calls them: it returns what
the initialisation computes. -/
theorem net_direct {V K X : Type} (fuel : Nat) (key : K) : ∀ (Ls : List (Line V K X)) (x : X),
    run fuel (net Ls).prog (key, x) = (netInit key Ls x).map (·.1)
  | [], x => rfl
  | L :: Ls, x => by
    simp only [net, Stmt.prog, run, netInit]
    rw [run_stmt_direct]
    rcases L.T.fresh (L.key key) (L.T.specOf x) with e | l
    · rfl
    · simp only
      rcases L.T.callAndUpdate l x with e | ⟨y, l'⟩
      · rfl
      · simp only [except_bind_ok]
        rw [net_direct fuel key Ls y]
        rcases netInit key Ls y with e | q <;> rfl

theorem netCall_of_netInit {V K X : Type} (key : K) : ∀ (Ls : List (Line V K X)) (x z : X) (ls ls' : List (LayerVars V)),
    netInit key Ls x = .ok (z, ls, ls') → netCall Ls ls x = some (z, ls')
  | [], x, z, ls, ls', h => by
    simp only [netInit, Except.ok.injEq, Prod.mk.injEq] at h
    obtain ⟨rfl, rfl, rfl⟩ := h
    rfl
  | L :: Ls, x, z, ls, ls', h => by
    simp only [netInit] at h
    rcases h1 : L.T.fresh (L.key key) (L.T.specOf x) with e | l <;> simp only [h1, reduceCtorEq] at h
    rcases h2 : L.T.callAndUpdate l x with e | ⟨y, l'⟩ <;> simp only [h2, reduceCtorEq] at h
    rcases h3 : netInit key Ls y with e | ⟨z', m, m'⟩ <;> simp only [h3, reduceCtorEq, Except.ok.injEq, Prod.mk.injEq] at h
    obtain ⟨rfl, rfl, rfl⟩ := h
    simp [netCall, h2, netCall_of_netInit key Ls y z' m m' h3]

/-- C88: the module that was just initialised, called on the argument it was initialised with, returns what the
function returns with that key. -/
theorem net_first_call {V K X : Type} (fuel : Nat) (key0 : K) (Ls : List (Line V K X)) (hnd : (netNames Ls).Nodup)
    (hf : ∀ L ∈ Ls, Fits key0 L) (oname : Option String) (key : K) (x z : X)
    (h : run fuel (net Ls).prog (key, x) = .ok z) :
    ∃ M, functionInit fuel key0 (net Ls).prog oname key x = .ok M ∧ M.call fuel x = .ok z := by
  rw [net_direct] at h
  rcases hi : netInit key Ls x with e | ⟨z', ls, ls'⟩ <;> rw [hi] at h <;>
    simp only [except_map_error, except_map_ok, reduceCtorEq, Except.ok.injEq] at h
  subst h
  obtain ⟨M, hM, hMn, hMv⟩ := net_init fuel key0 Ls hnd oname key x z' ls ls' hi
  refine ⟨M, hM, ?_⟩
  have hc := net_call fuel key0 Ls hnd hf oname key x M hM ls (netInit_length key Ls x z' ls ls' hi).1 fuel x
  rw [netCall_of_netInit key Ls x z' ls ls' hi, ← hMv] at hc
  have hr : M.replace M.variables = M := rfl
  rw [hr] at hc
  simp only [FModule.call]
  rcases he : M.callAndUpdate fuel x with e | ⟨y, v⟩ <;> rw [he] at hc <;>
    simp only [Except.toOption, Option.map_some, reduceCtorEq, Option.some.injEq, Prod.mk.injEq] at hc
  simp [except_map_ok, hc.1]

/-- C88: two layers with the same name, or two layers without a name, are rejected by `init`. -/
theorem net_duplicate {V K X : Type} (fuel : Nat) (key0 : K) (Ls : List (Line V K X)) (hnd : ¬ (netNames Ls).Nodup)
    (oname : Option String) (key : K) (x : X) :
    ∃ e, functionInit fuel key0 (net Ls).prog oname key x = .error (.tracing e) :=
  stateful_duplicate_raises fuel key0 (net Ls) (net_made key0 Ls) (by rw [net_declared]; exact hnd) oname key x

/-- C88: a layer that is called returns what `_call` returns for the layer and its input, and is replaced by what
`_update` returns for the layer as it was and the same input (base.py:247-256). -/
theorem layer_call_and_update {V K S X Y : Type} (T : Tmpl V K S X Y) (l l' : LayerVars V) (x : X) (y : Y) :
    T.callAndUpdate l x = .ok (y, l') ↔ T.call l x = .ok y ∧ T.update l x = .ok l' := by
  rcases hy : T.call l x with e | y' <;> rcases hl : T.update l x with e | l'' <;>
    simp [Tmpl.callAndUpdate, hy, hl]

/-- C88: a template cannot be initialised without a key. -/
theorem layer_needs_key {V K S X Y : Type} (T : Tmpl V K S X Y) (x : X) (l : LayerVars V) :
    T.build none x ≠ .ok l ∧ ∀ k, T.build (some k) x = .ok l ↔ T.fresh k (T.specOf x) = .ok l :=
  ⟨nofun, fun _ => Iff.rfl⟩

/-! ### Witnesses -/

namespace LayerEx

/-- The number in a leaf. -/
def num : Val Nat → Nat
  | .leaf n => n
  | _ => 0

/-- A layer with the weight `key + 1` that multiplies by the weight and counts its calls in its state; it can be
initialised for arguments below 100. -/
def scale : Tmpl Nat Nat Nat Nat Nat where
  specOf x := x
  fresh k s := if s < 100 then .ok (.leaf (k + 1), .leaf 0) else .error .fail
  call l x := if x < 100 then .ok (num l.1 * x) else .error .fail
  update l x := .ok (l.1, .leaf (num l.2 + x))

/-- `def f(x, init_key): x = Scale()(x, init_key=init_key, name='a'); x = Scale()(x, init_key=2 * init_key)`. -/
def lines : List (Line Nat Nat Nat) := [⟨some "a", Nat, scale, id⟩, ⟨none, Nat, scale, (2 * ·)⟩]

theorem lines_fits : ∀ L ∈ lines, Fits 0 L := by
  intro L hL l x y h
  simp only [lines, List.mem_cons, List.not_mem_nil, or_false] at hL
  have hx : x < 100 := by
    rcases hL with rfl | rfl <;>
    · simp only [Tmpl.callAndUpdate, scale] at h
      by_contra hc
      simp [hc] at h
  rcases hL with rfl | rfl
  · exact ⟨_, if_pos hx⟩
  · exact ⟨_, if_pos hx⟩

/-- The hypotheses of the theorems are met: the weights are 3 and 5, so that 4 gives 60; after updates by 4 and 1 the
first layer has seen 5 and the second one 15; 40 gives 120, which the second layer does not accept. -/
example : (netNames lines).Nodup ∧ (∀ L ∈ lines, Fits 0 L) ∧
    netInit 2 lines 4 = .ok (60, [(.leaf 3, .leaf 0), (.leaf 5, .leaf 0)], [(.leaf 3, .leaf 4), (.leaf 5, .leaf 12)]) ∧
    netUpdates lines [(.leaf 3, .leaf 0), (.leaf 5, .leaf 0)] [4, 1] =
      some [(.leaf 3, .leaf 5), (.leaf 5, .leaf 15)] ∧
    (netCall lines [(.leaf 3, .leaf 0), (.leaf 5, .leaf 0)] 40).isNone ∧
    run 1 (net lines).prog (2, 4) = .ok 60 ∧
    ∃ M, functionInit 1 0 (net lines).prog none 2 4 = .ok M ∧ M.variables "params" = some (.leaf 5) ∧
      ∃ v, M.callAndUpdate 1 1 = .ok (15, v) ∧ v "state" = some (.leaf 3) ∧ v "params" = some (.leaf 5) ∧
        (v "a").map (fun d => asVars d "state") = some (some (.leaf 1)) :=
  ⟨by decide +kernel, lines_fits, rfl, rfl, rfl, rfl, _, rfl, rfl, _, rfl, rfl, rfl, rfl⟩

/-- `net_duplicate`: two layers without a name. -/
example : ¬ (netNames [(⟨none, Nat, scale, id⟩ : Line Nat Nat Nat), ⟨none, Nat, scale, id⟩]).Nodup ∧
    ∃ e, functionInit 1 0 (net [(⟨none, Nat, scale, id⟩ : Line Nat Nat Nat), ⟨none, Nat, scale, id⟩]).prog none 2 4 =
      .error (.tracing e) := ⟨by decide +kernel, _, rfl⟩

/-- `template_build` without a key. -/
example (x : Nat) : scale.build none x = .error .fail := rfl

end LayerEx

end Verif.State
