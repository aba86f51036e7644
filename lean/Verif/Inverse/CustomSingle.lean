import Verif.Inverse.Custom

/-! Inverting one application of a function with a custom inverse. -/
namespace Verif.Inverse.Custom

open Verif.Propagate

variable {V L : Type}

theorem writeAll_other {C L S : Type} (O : CellOps C L) (x : Nat) (as : List (Atom L)) (env : Env C) (cs : List C)
    (h : Atom.var x ∉ as) : (writeAll O env as cs).1 x = env x := by
  induction as generalizing env cs with
  | nil => cases cs <;> rfl
  | cons a as ih =>
    obtain _ | ⟨c, cs⟩ := cs
    · rfl
    · simp only [writeAll]
      rw [ih _ _ (fun hc => h (by simp [hc]))]
      cases a with
      | lit v => rfl
      | drop y => rfl
      | var y =>
        have : x ≠ y := by rintro rfl; exact h (by simp)
        simp [write, this]

theorem writeAll_at {C L S : Type} (O : CellOps C L) (x : Nat) (as : List (Atom L)) (env : Env C) (cs : List C) (k : Nat)
    (h : as[k]? = some (Atom.var x)) (hu : ∀ j, as[j]? = some (Atom.var x) → j = k) (c : C) (hc : cs[k]? = some c) :
    (writeAll O env as cs).1 x = O.join (env x) c := by
  induction as generalizing env cs k with
  | nil => simp at h
  | cons a as ih =>
    obtain _ | ⟨c', cs⟩ := cs
    · simp at hc
    · simp only [writeAll]
      cases k with
      | zero =>
        simp only [List.getElem?_cons_zero, Option.some.injEq] at h hc
        subst h hc
        rw [writeAll_other (S := S)]
        · simp [write]
        · intro hm
          obtain ⟨j, hj⟩ := List.mem_iff_getElem?.1 hm
          have := hu (j + 1) (by simpa using hj)
          omega
      | succ k =>
        rw [ih _ _ k (by simpa using h) (fun j hj => by have := hu (j + 1) (by simpa using hj); omega) (by simpa using hc)]
        congr 1
        cases a with
        | lit v => rfl
        | drop y => rfl
        | var y =>
          have : x ≠ y := by
            rintro rfl
            have := hu 0 (by simp)
            omega
          simp [write, this]

theorem writeAll_none (zero : L) (as : List (Atom V)) (env : Env (Cell V L)) (cs : List (Cell V L))
    (hall : ∀ (j x : Nat) (c : Cell V L), as[j]? = some (Atom.var x) → cs[j]? = some c → c = none) :
    (writeAll (ops zero) env as cs).1 = env := by
  induction as generalizing env cs with
  | nil => cases cs <;> rfl
  | cons a as ih =>
    obtain _ | ⟨c, cs⟩ := cs
    · rfl
    · simp only [writeAll]
      rw [ih]
      · cases a with
        | lit v => rfl
        | drop x => rfl
        | var x =>
          have := hall 0 x c (by simp) (by simp)
          subst this
          funext z
          simp only [write, ops]
          by_cases hz : z = x
          · subst hz; simp
          · simp [hz]
      · intro j x c h1 h2
        exact hall (j + 1) x c (by simpa using h1) (by simpa using h2)

/-- The arguments of `single`. -/
def args (given : List (Option V)) : List (Atom V) :=
  given.mapIdx argAt

/-- The outputs of `single`. -/
def outs (V : Type) (n m : Nat) : List (Atom V) := (List.range m).map (fun j => Atom.var (n + j))

theorem single_jaxpr (zero : L) (d : Def V L) (given : List (Option V)) (m : Nat) :
    (single d given m).jaxpr zero = ⟨[], (args given).filter (fun a => a.node.isSome), outs V given.length m,
      [⟨args given, outs V given.length m, rule zero d⟩]⟩ := rfl

theorem args_get (given : List (Option V)) (k x : Nat) :
    (args given)[k]? = some (Atom.var x) ↔ given[k]? = some none ∧ x = k := by
  simp only [args, List.getElem?_mapIdx, Option.map_eq_some_iff]
  constructor
  · rintro ⟨g, hg, h⟩
    cases g with
    | some v => simp [argAt] at h
    | none => simp only [argAt, Atom.var.injEq] at h; exact ⟨hg, h.symm⟩
  · rintro ⟨hg, rfl⟩
    exact ⟨none, hg, rfl⟩

theorem outs_get (n m k x : Nat) : (outs V n m)[k]? = some (Atom.var x) ↔ k < m ∧ x = n + k := by
  simp only [outs, List.getElem?_map, Option.map_eq_some_iff]
  constructor
  · rintro ⟨j, hj, h⟩
    obtain ⟨h1, h2⟩ := List.getElem?_eq_some_iff.1 hj
    simp only [List.length_range] at h1
    simp only [List.getElem_range] at h2
    simp only [Atom.var.injEq] at h
    subst h2
    exact ⟨h1, h.symm⟩
  · rintro ⟨h1, rfl⟩
    exact ⟨k, by rw [List.getElem?_range h1], rfl⟩

/-- The initial environment: only the outputs are known. -/
def env0 (zero : L) (n : Nat) (ys : List V) : Env (Cell V L) :=
  fun x => if n ≤ x then (ys[x - n]?).map (fun y => (y, zero)) else none

theorem initEnv_eq (zero : L) (d : Def V L) (given : List (Option V)) (ys : List V) :
    initEnv (ops zero) ((single d given ys.length).jaxpr zero) []
      ((single d given ys.length).invars.map (fun _ => none)) (ys.map (fun y => some (y, zero))) =
    env0 zero given.length ys := by
  rw [single_jaxpr]
  simp only [initEnv]
  rw [writeAll_none]
  · rw [writeAll_none zero _ _ ((single d given ys.length).invars.map (fun _ => none))]
    · funext x
      simp only [writeAll, env0]
      by_cases hx : given.length ≤ x ∧ x < given.length + ys.length
      · rw [if_pos hx.1]
        have hk : (x - given.length) < ys.length := by omega
        rw [writeAll_at (S := Bool) _ x _ _ _ (x - given.length) ((outs_get _ _ _ _).2 ⟨hk, by omega⟩)
          (fun j hj => by have := ((outs_get _ _ _ _).1 hj).2; omega) (some (ys[x - given.length], zero))
          (by simp [List.getElem?_eq_getElem hk])]
        simp [ops, List.getElem?_eq_getElem hk]
      · rw [writeAll_other (S := Bool)]
        · split
          · rw [List.getElem?_eq_none (by omega)]; rfl
          · rfl
        · intro hm
          obtain ⟨j, hj⟩ := List.mem_iff_getElem?.1 hm
          have := (outs_get _ _ _ _).1 hj
          omega
    · intro j x c _ h2
      rw [List.getElem?_map] at h2
      rcases hk : (single d given ys.length).invars[j]? with _ | a <;> rw [hk] at h2 <;> simp at h2
      exact h2.symm
  · intro j x c h1 h2
    rw [List.getElem?_map, h1] at h2
    simp only [Option.map_some, Option.some.injEq] at h2
    rw [← h2]; rfl

theorem read_args (zero : L) (given : List (Option V)) (ys : List V) :
    (args given).map (Propagate.read (ops zero) (env0 zero given.length ys)) =
      given.map (fun g => g.map (fun v => (v, zero))) := by
  apply List.ext_getElem?
  intro k
  simp only [args, List.getElem?_map, List.getElem?_mapIdx, Option.map_map]
  rcases hg : given[k]? with _ | g
  · rfl
  · have hk := (List.getElem?_eq_some_iff.1 hg).1
    cases g with
    | some v => rfl
    | none =>
      simp only [Option.map_some, Function.comp_apply, argAt, Propagate.read, env0, Option.map_none]
      rw [if_neg (by omega)]

theorem read_outs (zero : L) (n : Nat) (ys : List V) :
    (outs V n ys.length).map (Propagate.read (ops zero) (env0 zero n ys)) = ys.map (fun y => some (y, zero)) := by
  apply List.ext_getElem?
  intro k
  simp only [outs, List.getElem?_map, Option.map_map]
  by_cases hk : k < ys.length
  · rw [List.getElem?_range hk, List.getElem?_eq_getElem hk]
    simp [Propagate.read, env0, List.getElem?_eq_getElem hk]
  · rw [List.getElem?_eq_none (by simpa using hk), List.getElem?_eq_none (by simpa using hk)]
    rfl

theorem filterMap_fst (zero : L) (ys : List V) :
    (ys.map (fun y => (some (y, zero) : Cell V L))).filterMap (·.map (·.1)) = ys := by
  induction ys with
  | nil => rfl
  | cons y ys ih => simpa using ih

theorem filterMap_snd (zero : L) (ys : List V) :
    (ys.map (fun y => (some (y, zero) : Cell V L))).filterMap (·.map (·.2)) = List.replicate ys.length zero := by
  induction ys with
  | nil => rfl
  | cons y ys ih => simpa [List.replicate_succ] using ih

theorem rule_single (zero : L) (d : Def V L) (hn : d.nconsts = 0) (given : List (Option V)) (hu : none ∈ given)
    (ys : List V) : rule zero d (given.map (fun g => g.map (fun v => (v, zero)))) (ys.map (fun y => some (y, zero))) =
    (match d.back given ys (List.replicate ys.length zero) with
      | none => given.map (fun g => g.map (fun v => (v, zero)))
      | some new => List.zipWith (fun n old => n.or old) new (given.map (fun g => g.map (fun v => (v, zero)))),
      ys.map (fun y => some (y, zero)),
      match d.back given ys (List.replicate ys.length zero) with
      | none => false
      | some new => new.any (·.isNone)) := by
  have h1 : (given.map (fun g => g.map (fun v => (v, zero)))).map (·.map (·.1)) = given := by
    rw [List.map_map]
    conv => rhs; rw [← List.map_id given]
    congr 1
    funext g
    cases g <;> rfl
  have h2 : ((ys.map (fun y => (some (y, zero) : Cell V L))).all (·.isSome) &&
      (given.map (fun g => g.map (fun v => (v, zero)))).any (·.isNone)) = true := by
    simp only [Bool.and_eq_true, List.all_eq_true, List.any_eq_true]
    refine ⟨?_, none, List.mem_map.2 ⟨none, hu, rfl⟩, rfl⟩
    intro c hc
    obtain ⟨y, -, rfl⟩ := List.mem_map.1 hc
    rfl
  simp only [rule, hn, List.take_zero, List.drop_zero]
  rw [if_pos h2, h1, filterMap_fst, filterMap_snd]
  rcases d.back given ys (List.replicate ys.length zero) with _ | new <;> simp

/-- What the propagation finds: the user's function is given the known inputs, the outputs and ILDJs of 0; nothing if it
raises `NonInvertibleError` or leaves an unknown input unknown. -/
def propAnswer (d : Def V L) (zero : L) (given : List (Option V)) (ys : List V) : Option (List (V × L)) :=
  match d.back given ys (List.replicate ys.length zero) with
  | none => none
  | some new => (((given.zip new).filter (fun p => p.1.isNone)).map (·.2)).mapM (m := Option) id

/-- Whether the rule raises. -/
def raisesAt (d : Def V L) (zero : L) (given : List (Option V)) (ys : List V) : Bool :=
  match d.back given ys (List.replicate ys.length zero) with
  | none => false
  | some new => new.any (·.isNone)

/-- What `inverse` does: the user's function is given the known inputs, the outputs and ILDJs of 0; if it raises
`NonInvertibleError` there is a `ValueError`, if it returns `None` for an input the call raises, and otherwise what it
returns for the missing inputs is returned. -/
def answer (d : Def V L) (zero : L) (given : List (Option V)) (ys : List V) : Outcome V L :=
  match d.back given ys (List.replicate ys.length zero) with
  | none => .valueError
  | some new =>
    match new.mapM (m := Option) id with
    | none => .raises
    | some vs => .returns (((given.zip vs).filter (fun p => p.1.isNone)).map (·.2))

theorem mapM_id_any {α : Type} (l : List (Option α)) :
    (l.any (·.isNone) = true ∧ l.mapM (m := Option) id = none) ∨
    (l.any (·.isNone) = false ∧ ∃ vs, l.mapM (m := Option) id = some vs ∧ l = vs.map some) := by
  induction l with
  | nil => exact .inr ⟨rfl, [], rfl, rfl⟩
  | cons a l ih =>
    cases a with
    | none => exact .inl ⟨rfl, rfl⟩
    | some v =>
      rcases ih with ⟨h1, h2⟩ | ⟨h1, vs, h2, h3⟩
      · refine .inl ⟨by simpa using h1, ?_⟩
        simp only [List.mapM_cons, id_eq, h2]; rfl
      · refine .inr ⟨by simpa using h1, v :: vs, ?_, by rw [h3]; rfl⟩
        simp only [List.mapM_cons, id_eq, h2]; rfl

theorem mapM_id_some {α : Type} (vs : List α) : (vs.map some).mapM (m := Option) id = some vs := by
  induction vs with
  | nil => rfl
  | cons v vs ih => simp only [List.map_cons, List.mapM_cons, id_eq, ih]; rfl

theorem answer_eq (d : Def V L) (zero : L) (given : List (Option V)) (ys : List V) :
    answer d zero given ys = bif raisesAt d zero given ys then .raises else
      match propAnswer d zero given ys with
      | some r => .returns r
      | none => .valueError := by
  simp only [answer, raisesAt, propAnswer]
  rcases d.back given ys (List.replicate ys.length zero) with _ | new
  · rfl
  · simp only
    rcases mapM_id_any new with ⟨h1, h2⟩ | ⟨h1, vs, h2, h3⟩
    · rw [h1, h2]; rfl
    · rw [h1, h2, h3]
      simp only [cond_false]
      have : ((given.zip (vs.map some)).filter (fun p => p.1.isNone)).map (·.2) =
          (((given.zip vs).filter (fun p => p.1.isNone)).map (·.2)).map some := by
        rw [List.zip_map_right, List.filter_map, List.map_map, List.map_map]
        rfl
      rw [this, mapM_id_some]

theorem nbr_iff (zero : L) (d : Def V L) (given : List (Option V)) (m x e : Nat) :
    Nbr ((single d given m).jaxpr zero) x e → e = 0 := by
  rintro ⟨q, hq, -⟩
  rw [single_jaxpr] at hq
  cases e with
  | zero => rfl
  | succ e => simp at hq

theorem pushes_nil (zero : L) (d : Def V L) (given : List (Option V)) (m : Nat) (xs : List Nat) :
    ∀ q, Pushes ((single d given m).jaxpr zero) 0 xs [] q ↔ q = [] := by
  induction xs with
  | nil =>
    intro q
    constructor
    · intro h; cases h; rfl
    · rintro rfl; exact .nil _
  | cons x xs ih =>
    intro q
    constructor
    · intro h
      cases h with
      | cons _ _ _ ns _ hnd hns ht =>
        have : ns = [] := by
          apply List.eq_nil_iff_forall_not_mem.2
          intro e he
          obtain ⟨h1, -, h3⟩ := (hns e).1 he
          exact h3 (nbr_iff _ _ _ _ _ _ h1)
        subst this
        exact (ih q).1 ht
    · rintro rfl
      refine .cons x xs [] [] [] List.nodup_nil ?_ ((ih []).2 rfl)
      intro e
      constructor
      · intro h; simp at h
      · rintro ⟨h1, -, h3⟩; exact absurd (nbr_iff _ _ _ _ _ _ h1) h3

/-- C63.  One application of a function with a custom inverse, some arguments given and some to be recovered: every run
of `inverse` asks the user's function once, with the given arguments, the outputs and ILDJs of 0, and returns exactly what
it answers for the missing arguments; it raises if the answer has a `None` in it. -/
theorem custom_single_run (zero : L) (d : Def V L) (hn : d.nconsts = 0) (given : List (Option V)) (hu : none ∈ given)
    (ys : List V)
    (hsz : ∀ new, d.back given ys (List.replicate ys.length zero) = some new → new.length = given.length)
    (out : Outcome V L) :
    InverseRun zero (single d given ys.length) ys out ↔ out = answer d zero given ys := by
  obtain ⟨k0, hk0⟩ := List.mem_iff_getElem?.1 hu
  let J := (single d given ys.length).jaxpr zero
  let E := env0 zero given.length ys
  let q : Propagate.Eqn (Cell V L) V Bool := ⟨args given, outs V given.length ys.length, rule zero d⟩
  have hJ : J.eqns[0]? = some q := rfl
  have hqueue : ∀ qu, InitQueue J qu ↔ qu = [0] := by
    intro qu
    have hmem : ∀ e, (∃ x, some x ∈ (J.outvars ++ J.invars ++ J.constvars).map Atom.node ∧ Nbr J x e) ↔ e = 0 := by
      intro e
      constructor
      · rintro ⟨x, -, h⟩; exact nbr_iff _ _ _ _ _ _ h
      · rintro rfl
        have ha : Atom.var k0 ∈ args given := List.mem_of_getElem? ((args_get given k0 k0).2 ⟨hk0, rfl⟩)
        refine ⟨k0, ?_, q, hJ, ?_⟩
        · refine List.mem_map.2 ⟨Atom.var k0, ?_, rfl⟩
          simp only [List.mem_append]
          exact .inl (.inr (List.mem_filter.2 ⟨ha, rfl⟩))
        · exact List.mem_map.2 ⟨Atom.var k0, List.mem_append.2 (.inl ha), rfl⟩
    constructor
    · rintro ⟨h1, h2⟩
      have h3 : ∀ e, e ∈ qu ↔ e = 0 := fun e => (h2 e).trans (hmem e)
      obtain _ | ⟨a, _ | ⟨b, l⟩⟩ := qu
      · have := (h3 0).2 rfl; simp at this
      · have := (h3 a).1 (by simp); subst this; rfl
      · have e1 := (h3 a).1 (by simp)
        have e2 := (h3 b).1 (by simp)
        subst e1 e2
        simp at h1
    · rintro rfl
      refine ⟨by simp, fun e => ?_⟩
      rw [hmem]; simp
  -- the state after the only step
  have hread : ∀ k, given[k]? = some none → (exec (ops zero) E q).1 k =
      match d.back given ys (List.replicate ys.length zero) with
      | none => none
      | some new => (new[k]?).join := by
    intro k hk
    have hkl := (List.getElem?_eq_some_iff.1 hk).1
    simp only [exec, q]
    rw [read_args, read_outs, rule_single zero d hn given hu]
    simp only
    rw [writeAll_other (S := Bool)]
    · have hE : E k = none := by simp only [E, env0]; rw [if_neg (by omega)]
      have harg := (args_get given k k).2 ⟨hk, rfl⟩
      have huniq : ∀ j, (args given)[j]? = some (Atom.var k) → j = k := fun j hj => ((args_get given j k).1 hj).2.symm
      rcases hb : d.back given ys (List.replicate ys.length zero) with _ | new
      · simp only
        rw [writeAll_at (S := Bool) _ k _ _ _ k harg huniq none (by rw [List.getElem?_map, hk]; rfl)]
        simp [ops, hE]
      · simp only
        have hnk : k < new.length := by rw [hsz new hb]; exact hkl
        rw [writeAll_at (S := Bool) _ k _ _ _ k harg huniq new[k] ?_]
        · rw [hE, List.getElem?_eq_getElem hnk]
          rcases new[k] with _ | c <;> simp [ops]
        · rw [List.getElem?_zipWith, List.getElem?_eq_getElem hnk, List.getElem?_map, hk]
          simp
    · intro hm
      obtain ⟨j, hj⟩ := List.mem_iff_getElem?.1 hm
      have := ((outs_get _ _ _ _).1 hj).2
      omega
  have hans : ((single d given ys.length).invars.map (Propagate.read (ops zero) (exec (ops zero) E q).1)).mapM (m := Option) id =
      propAnswer d zero given ys := by
    have hinv : ∀ (h : Nat → Cell V L) (env : Env (Cell V L)), (∀ k, given[k]? = some none → env k = h k) →
        (single d given ys.length).invars.map (Propagate.read (ops zero) env) =
          (given.zipIdx.filter (fun p => p.1.isNone)).map (fun p => h p.2) := by
      intro h env henv
      have : ∀ (g : List (Option V)) (b : Nat), (∀ k, g[k]? = some none → env (b + k) = h (b + k)) →
          ((g.mapIdx (fun k => argAt (b + k))).filter
            (fun a => a.node.isSome)).map (Propagate.read (ops zero) env) =
          ((g.zipIdx b).filter (fun p => p.1.isNone)).map (fun p => h p.2) := by
        intro g
        induction g with
        | nil => intro b _; rfl
        | cons v g ih =>
          intro b hb
          have ih' := ih (b + 1) (fun k hk => by
            have := hb (k + 1) (by simpa using hk)
            rw [show b + 1 + k = b + (k + 1) by omega]; exact this)
          have hfun : (fun k => argAt (V := V) (b + (k + 1))) = (fun k => argAt (b + 1 + k)) := by
            funext k
            rw [show b + (k + 1) = b + 1 + k by omega]
          rw [List.mapIdx_cons, List.zipIdx_cons, hfun]
          cases v with
          | some v => simpa [Atom.node, argAt] using ih'
          | none =>
            rw [List.filter_cons_of_pos (by rfl), List.filter_cons_of_pos (by rfl), List.map_cons, List.map_cons, ih']
            congr 1
            simpa [Propagate.read, argAt] using hb 0 (by simp)
      have h0 := this given 0 (fun k hk => by simpa using henv k hk)
      simpa [single, Nat.zero_add] using h0
    rw [hinv _ _ hread]
    simp only [propAnswer]
    rcases hb : d.back given ys (List.replicate ys.length zero) with _ | new
    · simp only
      have hmem : (none, k0) ∈ given.zipIdx.filter (fun p => p.1.isNone) := by
        rw [List.mem_filter]
        exact ⟨List.mk_mem_zipIdx_iff_getElem?.2 hk0, rfl⟩
      have : ∀ (l : List (Option V × Nat)) (p : Option V × Nat), p ∈ l →
          (l.map (fun _ => (none : Option (V × L)))).mapM (m := Option) id = none := by
        intro l p hp
        cases l with
        | nil => simp at hp
        | cons a l => simp [List.mapM_cons]
      exact this _ _ hmem
    · simp only
      have hl := hsz new hb
      congr 1
      have : ∀ (g : List (Option V)) (nw : List (Option (V × L))) (b : Nat) (h : Nat → Option (V × L)),
          nw.length = g.length → (∀ k, k < nw.length → h (b + k) = (nw[k]?).join) →
          ((g.zipIdx b).filter (fun p => p.1.isNone)).map (fun p => h p.2) =
            ((g.zip nw).filter (fun p => p.1.isNone)).map (·.2) := by
        intro g
        induction g with
        | nil => intro nw b h _ _; rfl
        | cons v g ih =>
          intro nw b h hlen hh
          obtain _ | ⟨c, nw⟩ := nw
          · simp at hlen
          · have ih' := ih nw (b + 1) h (by simpa using hlen) (fun k hk => by
              have := hh (k + 1) (by simpa using hk)
              rw [show b + 1 + k = b + (k + 1) by omega, this]
              simp)
            rw [List.zipIdx_cons, List.zip_cons_cons]
            cases v with
            | some v => simpa using ih'
            | none =>
              simp only [List.filter_cons, Option.isNone_none, if_true, List.map_cons, ih']
              congr 1
              simpa using hh 0 (by simp)
      exact this given new 0 (fun k => (new[k]?).join) hl (fun k hk => by simp)
  have hlen0 : (single d given ys.length).jaxpr zero = J := rfl
  have hinitenv : initEnv (ops zero) J [] ((single d given ys.length).invars.map (fun _ => none))
      (ys.map (fun y => some (y, zero))) = E := initEnv_eq zero d given ys
  have hflag : (exec (ops zero) E q).2.2.2 = raisesAt d zero given ys := by
    simp only [exec, q]
    rw [read_args, read_outs, rule_single zero d hn given hu]
    rfl
  have hstep : ∀ t u, t.queue = [0] → t.env = E → Step (ops zero) J t u → u.queue = [] ∧ u.env = (exec (ops zero) E q).1 ∧
      u.states = fun i => if i = 0 then some (raisesAt d zero given ys) else t.states i := by
    intro t u hq henv hst
    cases hst with
    | mk e rest q' qq hq' he hp =>
      rw [hq] at hq'
      simp only [List.cons.injEq] at hq'
      obtain ⟨rfl, rfl⟩ := hq'
      rw [hJ] at he
      obtain rfl := Option.some.inj he
      refine ⟨(pushes_nil zero d given ys.length _ qq).1 hp, ?_, ?_⟩
      · simp only [henv]
      · simp only [henv, hflag]
  have hmk : Step (ops zero) J ⟨E, [0], fun _ => none⟩ ⟨(exec (ops zero) E q).1, [],
      fun i => if i = 0 then some (exec (ops zero) E q).2.2.2 else none⟩ := by
    refine .mk ⟨E, [0], fun _ => none⟩ 0 [] q [] rfl hJ ?_
    exact (pushes_nil zero d given ys.length _ []).2 rfl
  have hinit : Init (ops zero) J [] ((single d given ys.length).invars.map (fun _ => none))
      (ys.map (fun y => some (y, zero))) ⟨E, [0], fun _ => none⟩ := ⟨hinitenv.symm, (hqueue _).2 rfl, fun _ => rfl⟩
  rw [answer_eq]
  constructor
  · rintro ⟨s0, s, h0, hs, hout⟩
    have h0e : s0.env = E := h0.1.trans hinitenv
    have h0q : s0.queue = [0] := (hqueue _).1 h0.2.1
    have hinv : (s.queue = [0] ∧ s.env = E ∧ ∀ i, s.states i = none) ∨
        (s.queue = [] ∧ s.env = (exec (ops zero) E q).1 ∧ raisesAt d zero given ys = false) := by
      clear hout
      induction hs with
      | refl => exact .inl ⟨h0q, h0e, h0.2.2⟩
      | tail t u _ hst hu ih =>
        rcases ih with ⟨h1, h2, -⟩ | ⟨h1, -⟩
        · obtain ⟨h3, h4, h5⟩ := hstep t u h1 h2 hst
          refine .inr ⟨h3, h4, ?_⟩
          have := hu 0
          rw [h5] at this
          simpa using this
        · cases hst with
          | mk e rest q' qq hq' he hp => rw [h1] at hq'; simp at hq'
    rcases hout with ⟨hq, rfl⟩ | ⟨u, e, hst, hu, rfl⟩
    · rcases hinv with ⟨h1, -⟩ | ⟨-, h2, h3⟩
      · rw [hq] at h1; simp at h1
      · rw [h2, hans, h3]; rfl
    · rcases hinv with ⟨h1, h2, h3⟩ | ⟨h1, -⟩
      · obtain ⟨-, -, h5⟩ := hstep s u h1 h2 hst
        rw [h5] at hu
        simp only [h3] at hu
        split at hu
        · simp only [Option.some.injEq] at hu; rw [hu]; rfl
        · simp at hu
      · cases hst with
        | mk e rest q' qq hq' he hp => rw [h1] at hq'; simp at hq'
  · rintro rfl
    cases hr : raisesAt d zero given ys with
    | true =>
      refine ⟨_, _, hinit, .refl _, .inr ⟨_, 0, hmk, ?_, by simp⟩⟩
      simp only [if_true, hflag, hr]
    | false =>
      refine ⟨_, _, hinit, .tail _ _ _ (.refl _) hmk ?_, .inl ⟨rfl, ?_⟩⟩
      · intro e
        simp only [hflag, hr]
        split <;> simp
      · simp only [cond_false]
        rw [hans]
        rcases propAnswer d zero given ys with _ | r <;> rfl

end Verif.Inverse.Custom
