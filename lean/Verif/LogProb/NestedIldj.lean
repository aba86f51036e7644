import Verif.LogProb.NestedSkip
import Verif.Inverse.NestedIldj

/-!
# C58 is false of programs of several variables: a call changes the density

`x1 ~ D; x2 ~ D; return exp(x1), t1 + t2` where `t1, t2 = jit(lambda x1, x2: (2 * x1, -x2))(x1, x2)`: every order of
propagation returns the wrong ILDJ (see `Verif.Inverse.Nested.C71_ildj_wrong`), and so the wrong log-density.
-/
namespace Verif.LogProb.Nested

open Verif.Propagate Verif.Inverse

variable {ι : Type}

/-- The rule of a binary primitive (inverse/core.py:268-287; `Verif.Inverse.binRule`), index by index. -/
noncomputable def bBin (p : Bin) : List (BCell ι) → List (BCell ι) → List (BCell ι) × List (BCell ι)
  | [some a, _], [some c] =>
    ([some a, some (fun j => (bind2 p.gl (a j).1 (c j).1, addF (c j).2 (bind2 p.ll (a j).1 (c j).1)))], [some c])
  | [none, some b], [some c] =>
    ([some (fun j => (bind2 p.gr (b j).1 (c j).1, addF (c j).2 (bind2 p.lr (b j).1 (c j).1))), some b], [some c])
  | [some a, some b], [none] => ([some a, some b], [some (fun j => (bind2 p.f (a j).1 (b j).1, some 0))])
  | i, o => (i, o)

/-- The callee: `(2 * x1, -x2)`. -/
noncomputable def lpBody : NProg ι := ⟨[.var 0, .var 1], [.var 2, .var 3],
  [⟨.det (bBin .mul), [.lit (some 2), .var 0], [.var 2]⟩, ⟨.det (bUn .neg), [.var 1], [.var 3]⟩]⟩

/-- `def p(key): k1, k2 = split(key); x1 = rv(D)(k1); x2 = rv(D)(k2); ...; return y1, y2`; the log-density of `D` is
`d`. -/
def lpProg (split : List F → List F) (d : List F → List F → F) (rest : List (NEqn ι)) : NProg ι := ⟨[.var 6], [.var 2, .var 5],
  ⟨.det (bDef split), [.var 6], [.var 7, .var 8]⟩ :: ⟨.rv 0 d, [.var 7], [.var 0]⟩ :: ⟨.rv 0 d, [.var 8], [.var 1]⟩ :: rest⟩

/-- `t1, t2 = call(x1, x2); return exp(x1), t1 + t2` with rule `r` of the call. -/
noncomputable def lpCall (split : List F → List F) (d : List F → List F → F) (r : Rule ι) : NProg ι := lpProg split d
  [⟨.det (bUn .exp), [.var 0], [.var 2]⟩, ⟨.call r, [.var 0, .var 1], [.var 3, .var 4]⟩,
   ⟨.det (bBin .add), [.var 3, .var 4], [.var 5]⟩]

/-- The same program without the call. -/
noncomputable def lpFlat (split : List F → List F) (d : List F → List F → F) : NProg ι := lpProg split d
  [⟨.det (bUn .exp), [.var 0], [.var 2]⟩, ⟨.det (bBin .mul), [.lit (some 2), .var 0], [.var 3]⟩,
   ⟨.det (bUn .neg), [.var 1], [.var 4]⟩, ⟨.det (bBin .add), [.var 3, .var 4], [.var 5]⟩]

/-! ### The rules -/

/-- A cell without batch as a batched cell. -/
def lift (c : ICell) : BCell ι := c.map (fun p _ => p)

theorem bUn_lift (p : Un) (a b : ICell) : bUn (ι := ι) p [lift a] [lift b] =
    ((unRule p [a] [b]).1.map lift, (unRule p [a] [b]).2.1.map lift) := by
  cases a <;> cases b <;> rfl

theorem bBin_lift (p : Bin) (a b c : ICell) : bBin (ι := ι) p [lift a, lift b] [lift c] =
    ((binRule p [a, b] [c]).1.map lift, (binRule p [a, b] [c]).2.1.map lift) := by
  cases a <;> cases b <;> cases c <;> rfl

/-! ### Runs on lifted cells -/

theorem lift_none : lift (ι := ι) none = none := rfl

theorem lift_join (a b : ICell) : (bOps ι).join (lift a) (lift b) = lift (iOps.join a b) := by
  cases a <;> cases b <;> rfl

theorem lift_lt (a b : ICell) : (bOps ι).lt (lift a) (lift b) = iOps.lt a b := by
  cases a <;> cases b <;> rfl

theorem lift_read (env : Env ICell) (a : Atom F) :
    Propagate.read (bOps ι) (fun x => lift (env x)) a = lift (Propagate.read iOps env a) := by
  cases a <;> rfl

theorem lift_reads (env : Env ICell) (as : List (Atom F)) :
    as.map (Propagate.read (bOps ι) (fun x => lift (env x))) = (as.map (Propagate.read iOps env)).map lift := by
  rw [List.map_map]
  exact List.map_congr_left fun a _ => lift_read env a

theorem lift_writeAll (as : List (Atom F)) (cs : List ICell) (env : Env ICell) :
    writeAll (bOps ι) (fun x => lift (env x)) as (cs.map lift) =
      (fun x => lift ((writeAll iOps env as cs).1 x), (writeAll iOps env as cs).2.map lift) := by
  induction as generalizing env cs with
  | nil => cases cs <;> rfl
  | cons a as ih =>
    cases cs with
    | nil => rfl
    | cons c cs =>
      have hw : write (bOps ι) (fun x => lift (env x)) a (lift c) =
          (fun x => lift ((write iOps env a c).1 x), lift (write iOps env a c).2) := by
        cases a with
        | lit v => rfl
        | drop x => rfl
        | var x =>
          simp only [write, lift_join]
          congr 1
          funext y
          split <;> rfl
      simp only [List.map_cons, writeAll, hw, ih]

theorem lift_progressed (as : List (Atom F)) (old new : List ICell) :
    progressed (bOps ι) as (old.map lift) (new.map lift) = progressed iOps as old new := by
  unfold progressed
  induction as generalizing old new with
  | nil => rfl
  | cons a as ih =>
    cases old with
    | nil => rfl
    | cons o old =>
      cases new with
      | nil => rfl
      | cons n new =>
        have := ih old new
        simp only [List.map_cons, List.zip_cons_cons, List.filter_cons, lift_lt]
        split
        · simp only [List.filterMap_cons, this]
        · exact this

/-- The rules of two equations agree on lifted cells. -/
def Agrees {S : Type} (q : Eqn (BCell ι) F S) (q' : Eqn ICell F Bool) : Prop :=
  q.ins = q'.ins ∧ q.outs = q'.outs ∧ ∀ i o, i.length = q'.ins.length → o.length = q'.outs.length →
    (q.rule (i.map lift) (o.map lift)).1 = (q'.rule i o).1.map lift ∧
    (q.rule (i.map lift) (o.map lift)).2.1 = (q'.rule i o).2.1.map lift

theorem agrees_exec {S : Type} (q : Eqn (BCell ι) F S) (q' : Eqn ICell F Bool) (h : Agrees q q') (env : Env ICell) :
    (exec (bOps ι) (fun x => lift (env x)) q).1 = (fun x => lift ((exec iOps env q').1 x)) ∧
    (exec (bOps ι) (fun x => lift (env x)) q).2.1 = (exec iOps env q').2.1.map lift ∧
    (exec (bOps ι) (fun x => lift (env x)) q).2.2.1 = (exec iOps env q').2.2.1.map lift := by
  obtain ⟨h1, h2, h3⟩ := h
  obtain ⟨h4, h5⟩ := h3 (q'.ins.map (Propagate.read iOps env)) (q'.outs.map (Propagate.read iOps env)) (by simp) (by simp)
  simp only [exec, h1, h2, lift_reads, h4, h5, lift_writeAll]
  exact ⟨trivial, trivial, trivial⟩

theorem pushes_congr {C L S C' L' S' : Type} {J : Jaxpr C L S} {J' : Jaxpr C' L' S'} (h : ∀ x e, Nbr J x e ↔ Nbr J' x e)
    {cur : Nat} {xs q q' : List Nat} (hp : Pushes J cur xs q q') : Pushes J' cur xs q q' := by
  induction hp with
  | nil q => exact .nil q
  | cons x xs q ns q' hnd hns ht ih => exact .cons x xs q ns q' hnd (fun e => by rw [hns, h]) ih

theorem sim_steps {S : Type} (J : Jaxpr (BCell ι) F S) (J' : Jaxpr ICell F Bool) (hl : J.eqns.length = J'.eqns.length)
    (ha : ∀ (e : Nat) q q', J.eqns[e]? = some q → J'.eqns[e]? = some q' → Agrees q q') (s0 s : St (BCell ι) S)
    (hs : Steps (bOps ι) J s0 s) (s0' : St ICell Bool) (henv : s0.env = fun x => lift (s0'.env x))
    (hq : s0.queue = s0'.queue) :
    ∃ s', Steps iOps J' s0' s' ∧ (s.env = fun x => lift (s'.env x)) ∧ s.queue = s'.queue := by
  have hnbr : ∀ x e, Nbr J x e ↔ Nbr J' x e := by
    intro x e
    by_cases hlt : e < J.eqns.length
    · have h1 : J.eqns[e]? = some J.eqns[e] := List.getElem?_eq_getElem hlt
      have h2 : J'.eqns[e]? = some (J'.eqns[e]'(hl ▸ hlt)) := List.getElem?_eq_getElem (hl ▸ hlt)
      obtain ⟨h3, h4, -⟩ := ha e _ _ h1 h2
      simp only [Nbr, h1, h2, Option.some.injEq, exists_eq_left', h3, h4]
    · have h1 : J.eqns[e]? = none := List.getElem?_eq_none (by omega)
      have h2 : J'.eqns[e]? = none := List.getElem?_eq_none (by omega)
      simp [Nbr, h1, h2]
  induction hs with
  | refl => exact ⟨s0', .refl _, henv, hq⟩
  | tail t u _ hst ih =>
    obtain ⟨t', hs', he', hq'⟩ := ih
    cases hst with
    | mk e rest q qq hqu he hp =>
      have hlt : e < J.eqns.length := (List.getElem?_eq_some_iff.1 he).1
      have h2 : J'.eqns[e]? = some (J'.eqns[e]'(hl ▸ hlt)) := List.getElem?_eq_getElem (hl ▸ hlt)
      have hag := ha e _ _ he h2
      obtain ⟨x1, x2, x3⟩ := agrees_exec _ _ hag t'.env
      rw [he'] at hp
      rw [x2, x3, hag.1, hag.2.1, lift_reads, lift_reads,
        ← List.map_append (f := lift) (l₁ := List.map _ _), ← List.map_append (f := lift) (l₁ := (exec iOps _ _).2.1),
        lift_progressed] at hp
      refine ⟨_, .tail _ _ _ hs' (.mk t' e rest _ qq (by rw [← hq', hqu]) h2 (pushes_congr hnbr hp)), ?_, rfl⟩
      rw [he']
      exact x1

/-! ### The call -/

theorem un_agrees (p : Un) (i o : Atom F) : Agrees (ι := ι) (⟨[i], [o], (NOp.det (bUn p)).rule⟩ : Eqn (BCell ι) F (LState ι))
    ⟨[i], [o], unRule p⟩ := by
  refine ⟨rfl, rfl, fun a b ha hb => ?_⟩
  obtain ⟨a, rfl⟩ := List.length_eq_one_iff.1 ha
  obtain ⟨b, rfl⟩ := List.length_eq_one_iff.1 hb
  simp only [NOp.rule, List.map_cons, List.map_nil, bUn_lift]
  exact ⟨trivial, trivial⟩

theorem bin_agrees (p : Bin) (i j o : Atom F) : Agrees (ι := ι)
    (⟨[i, j], [o], (NOp.det (bBin p)).rule⟩ : Eqn (BCell ι) F (LState ι)) ⟨[i, j], [o], binRule p⟩ := by
  refine ⟨rfl, rfl, fun a b ha hb => ?_⟩
  obtain ⟨a, c, rfl⟩ := List.length_eq_two.1 ha
  obtain ⟨b, rfl⟩ := List.length_eq_one_iff.1 hb
  simp only [NOp.rule, List.map_cons, List.map_nil, bBin_lift]
  exact ⟨trivial, trivial⟩

theorem body_eqns : (lpBody (ι := ι)).jaxpr.eqns = [⟨[.lit (some 2), .var 0], [.var 2], (NOp.det (bBin .mul)).rule⟩,
    ⟨[.var 1], [.var 3], (NOp.det (bUn .neg)).rule⟩] := rfl

/-- The outcomes of a run of the callee from lifted cells. -/
theorem body_run (x1 x2 t1 t2 : ICell) (s : St (BCell ι) (LState ι))
    (h : Run lpBody [lift x1, lift x2] [lift t1, lift t2] s) :
    s.env 0 = lift (Inverse.Nested.mulF x1 t1).1 ∧ s.env 2 = lift (Inverse.Nested.mulF x1 t1).2 ∧
    s.env 1 = lift (Inverse.Nested.negF x2 t2).1 ∧ s.env 3 = lift (Inverse.Nested.negF x2 t2).2 ∧
    ∀ e, (s.states e).join = none := by
  obtain ⟨s0, h0, hs, hq⟩ := h
  have hlen : (lpBody (ι := ι)).jaxpr.eqns.length = Inverse.Nested.inner.eqns.length := rfl
  have hag : ∀ (e : Nat) q q', (lpBody (ι := ι)).jaxpr.eqns[e]? = some q → Inverse.Nested.inner.eqns[e]? = some q' →
      Agrees q q' := by
    intro e q q' h1 h2
    obtain _ | _ | e := e
    · simp [body_eqns, Inverse.Nested.inner] at h1 h2
      subst h1 h2
      exact bin_agrees _ _ _ _
    · simp [body_eqns, Inverse.Nested.inner] at h1 h2
      subst h1 h2
      exact un_agrees _ _ _
    · simp [body_eqns] at h1
  obtain ⟨henv, hqq, hst⟩ := h0
  have hinit : initEnv (bOps ι) lpBody.jaxpr [] [lift x1, lift x2] [lift t1, lift t2] =
      fun x => lift (initEnv iOps Inverse.Nested.inner [] [x1, x2] [t1, t2] x) := by
    rw [init_env _ rfl]
    unfold initEnv
    rw [writeAll_nones]
    · have h1 := lift_writeAll (ι := ι) [.var 0, .var 1] [x1, x2] (fun _ => none)
      have h2 := lift_writeAll (ι := ι) [.var 2, .var 3] [t1, t2] (writeAll iOps (fun _ => none) [.var 0, .var 1] [x1, x2]).1
      show (writeAll (bOps ι) (writeAll (bOps ι) (fun _ => none) [.var 0, .var 1] [lift x1, lift x2]).1 [.var 2, .var 3]
        [lift t1, lift t2]).1 = _
      have h3 : (fun _ => none : Env (BCell ι)) = fun x => lift ((fun _ => none : Env ICell) x) := rfl
      rw [h3]
      simp only [List.map_cons, List.map_nil] at h1 h2
      rw [h1]
      simp only [h2]
      rfl
    · intro j x c h1 h2
      rw [List.getElem?_map, h1] at h2
      simp only [Option.map_some, Option.some.injEq] at h2
      rw [← h2]; rfl
  obtain ⟨s', hs', he', hq'⟩ := sim_steps _ _ hlen hag s0 s hs
    ⟨initEnv iOps Inverse.Nested.inner [] [x1, x2] [t1, t2], s0.queue, fun _ => none⟩ (by rw [henv, hinit]) rfl
  have hnbr : ∀ x e, Nbr (lpBody (ι := ι)).jaxpr x e ↔ Nbr Inverse.Nested.inner x e := by
    intro x e
    obtain _ | _ | e := e <;> simp [Nbr, body_eqns, Inverse.Nested.inner]
  obtain ⟨r1, r2, r3, r4⟩ := Inverse.Nested.inner_run x1 x2 t1 t2 s' ⟨_, ⟨rfl, ⟨hqq.1, fun e => by
    rw [hqq.2]; simp only [hnbr]; rfl⟩, fun _ => rfl⟩, hs', by rw [← hq', hq]⟩
  refine ⟨by simp only [he', r1], by simp only [he', r2], by simp only [he', r3], by simp only [he', r4], ?_⟩
  clear r1 r2 r3 r4 he' hq' hs' hq
  induction hs with
  | refl => intro e; rw [hst]; rfl
  | tail t u _ hstep ih =>
    cases hstep with
    | mk e rest q qq hqu he hp =>
      intro k
      show Option.join (if k = e then _ else _) = none
      split
      · obtain _ | _ | e := e
        · simp [body_eqns] at he
          subst he; rfl
        · simp [body_eqns] at he
          subst he; rfl
        · simp [body_eqns] at he
      · exact ih k

theorem call_rule_value (r : Rule ι) (hr : Calls lpBody r) (x1 x2 t1 t2 : ICell) : r [lift x1, lift x2] [lift t1, lift t2] =
    ([lift (Inverse.Nested.mulF x1 t1).1, lift (Inverse.Nested.negF x2 t2).1],
     [lift (Inverse.Nested.mulF x1 t1).2, lift (Inverse.Nested.negF x2 t2).2], some (some (fun _ => some 0))) := by
  obtain ⟨s, hs, heq⟩ := hr [lift x1, lift x2] [lift t1, lift t2] rfl rfl
  obtain ⟨h0, h2, h1, h3, hst⟩ := body_run x1 x2 t1 t2 s hs
  have hfin : finish lpBody s = some (fun _ => some 0) := by
    refine (finish_iff _ s _).2 ⟨?_, ?_⟩
    · intro e q he
      rw [hst e]
      refine ⟨by simp, fun hreg => ?_⟩
      obtain _ | _ | e := e
      · simp [lpBody] at he; subst he; simp [NOp.reg] at hreg
      · simp [lpBody] at he; subst he; simp [NOp.reg] at hreg
      · simp [lpBody] at he
    · funext j
      simp [lpBody, term, hst, sumF, addF_zero_left]
  rw [heq, hfin]
  simp [lpBody, Propagate.read, h0, h1, h2, h3]

/-! ### The program -/

/-- The equations after the random variables, and the same equations for cells without batch. -/
structure Rest (rest : List (NEqn ι)) (J' : Jaxpr ICell F Bool) : Prop where
  len : rest.length = J'.eqns.length
  agrees : ∀ (e : Nat) q q', rest[e]? = some q → J'.eqns[e]? = some q' → Agrees q.eqn q'
  low : ∀ x k, Nbr J' x k → x ≤ 5
  state : ∀ q ∈ rest, ∀ env : Env ICell, (exec (bOps ι) (fun x => lift (env x)) q.eqn).2.2.2 = none ∨
    (exec (bOps ι) (fun x => lift (env x)) q.eqn).2.2.2 = some (some (fun _ => some 0))
  noreg : ∀ q ∈ rest, q.op.reg = false
  sized : ∀ q ∈ rest, ∀ i o, i.length = q.ins.length → o.length = q.outs.length →
    (q.op.rule i o).1.length = q.ins.length ∧ (q.op.rule i o).2.1.length = q.outs.length

/-- An invariant of the runs through the equations after the random variables. -/
structure Good (J' : Jaxpr ICell F Bool) (I : Env ICell → (Nat → Prop) → Prop) : Prop where
  trans : ∀ (env : Env ICell) (Q Q' : Nat → Prop) (e : Nat) (q : Eqn ICell F Bool), J'.eqns[e]? = some q → I env Q → Q e →
    (∀ k, k ≠ e → Q k → Q' k) →
    (∀ x, env x = none → (exec iOps env q).1 x ≠ none → ∀ k, k ≠ e → Nbr J' x k → Q' k) →
    (∀ k, Q' k → k ≠ e ∧ (Q k ∨ ∃ x, env x = none ∧ Nbr J' x k)) → I (exec iOps env q).1 Q'
  x1 : ∀ env Q, I env Q → env 0 = none ∨ ∃ l, env 0 = some (some 1, l)
  x2 : ∀ env Q, I env Q → env 1 = none ∨ ∃ l, env 1 = some (some 1, l)

/-- The state of a run. -/
structure LpInv (d : List F → List F → F) (I : Env ICell → (Nat → Prop) → Prop) (env : Env ICell)
    (s : St (BCell ι) (LState ι)) : Prop where
  lifted : s.env = fun x => lift (env x)
  key : env 6 = none ∧ env 7 = none ∧ env 8 = none
  nodup : s.queue.Nodup
  inv : I env (fun k => k + 3 ∈ s.queue)
  st0 : (s.states 0).join = none
  st1 : (s.states 1).join = none ∨ (s.states 1).join = some (some (fun _ => d [] [some 1]))
  st2 : (s.states 2).join = none ∨ (s.states 2).join = some (some (fun _ => d [] [some 1]))
  st3 : ∀ k, (s.states (k + 3)).join = none ∨ (s.states (k + 3)).join = some (some (fun _ => some 0))

theorem same_exec {S : Type} (env : Env (BCell ι)) (q : Eqn (BCell ι) F S)
    (h : ∀ i o, i = q.ins.map (Propagate.read (bOps ι) env) → o = q.outs.map (Propagate.read (bOps ι) env) →
      (q.rule i o).1 = i ∧ (q.rule i o).2.1 = o) :
    (exec (bOps ι) env q).1 = env ∧ progressed (bOps ι) (q.ins ++ q.outs) (q.ins.map (Propagate.read (bOps ι) env) ++
        q.outs.map (Propagate.read (bOps ι) env)) ((exec (bOps ι) env q).2.1 ++ (exec (bOps ι) env q).2.2.1) = [] := by
  have hret : ∀ as : List (Atom F), (writeAll (bOps ι) env as (as.map (Propagate.read (bOps ι) env))).2 =
      as.map (Propagate.read (bOps ι) env) := by
    intro as
    induction as with
    | nil => rfl
    | cons a as ih =>
      have h1 : (write (bOps ι) env a (Propagate.read (bOps ι) env a)).1 = env := by
        have := writeAll_same env [a]
        simpa [writeAll] using this
      simp only [List.map_cons, writeAll, h1, ih]
      congr 1
      cases a with
      | lit v => rfl
      | drop x => rfl
      | var x => simp only [write, Propagate.read, bOps]; split <;> rfl
  obtain ⟨h1, h2⟩ := h _ _ rfl rfl
  refine ⟨?_, ?_⟩
  · simp only [exec, h1, h2, writeAll_same]
  · simp only [exec, h1, h2, writeAll_same, hret]
    rw [← List.map_append]
    rw [List.eq_nil_iff_forall_not_mem]
    intro x hx
    rw [mem_progressed] at hx
    obtain ⟨i, a, o, n, -, h3, h4, h5, -⟩ := hx
    rw [h3] at h4
    obtain rfl := Option.some.inj h4
    cases o <;> simp [bOps] at h5

theorem lp_nbr (split d) (rest : List (NEqn ι)) (J' : Jaxpr ICell F Bool) (hR : Rest rest J') (x k : Nat) :
    Nbr (lpProg split d rest).jaxpr x (k + 3) ↔ Nbr J' x k := by
  have h1 : (lpProg split d rest).jaxpr.eqns[k + 3]? = (rest[k]?).map NEqn.eqn := by
    rw [eqn_at]; simp [lpProg]
  by_cases hlt : k < rest.length
  · have h2 : rest[k]? = some rest[k] := List.getElem?_eq_getElem hlt
    have h3 : J'.eqns[k]? = some (J'.eqns[k]'(hR.len ▸ hlt)) := List.getElem?_eq_getElem (hR.len ▸ hlt)
    obtain ⟨h4, h5, -⟩ := hR.agrees k _ _ h2 h3
    simp only at h4 h5
    simp only [Nbr, h1, h2, h3, Option.map_some, Option.some.injEq, exists_eq_left', h4, h5]
  · have h2 : rest[k]? = none := List.getElem?_eq_none (by omega)
    have h3 : J'.eqns[k]? = none := List.getElem?_eq_none (by have := hR.len; omega)
    simp [Nbr, h1, h2, h3]

theorem lp_sized (split d) (rest : List (NEqn ι)) (J' : Jaxpr ICell F Bool) (hR : Rest rest J') :
    Sized (lpProg split d rest).jaxpr := by
  intro q hq i o hi ho
  simp only [NProg.jaxpr, lpProg, List.map_cons, List.mem_cons, List.mem_map] at hq
  rcases hq with rfl | rfl | rfl | ⟨q, hq, rfl⟩
  · simp only [NOp.rule, bDef]
    split
    · split
      · exact ⟨hi, by simpa using ho⟩
      · exact ⟨hi, ho⟩
    · exact ⟨hi, ho⟩
  · simp only [NOp.rule, (rvRule_id _ _ _ _).1, (rvRule_id _ _ _ _).2]; exact ⟨hi, ho⟩
  · simp only [NOp.rule, (rvRule_id _ _ _ _).1, (rvRule_id _ _ _ _).2]; exact ⟨hi, ho⟩
  · exact hR.sized q hq i o hi ho

theorem lp_step (split d) (rest : List (NEqn ι)) (J' : Jaxpr ICell F Bool) (hR : Rest rest J') (I) (hI : Good J' I)
    (env : Env ICell) (s t : St (BCell ι) (LState ι)) (h : LpInv d I env s)
    (hst : Step (bOps ι) (lpProg split d rest).jaxpr s t) : ∃ env', LpInv d I env' t := by
  cases hst with
  | mk e rst q q' hq he hp =>
    have hnd := h.nodup
    rw [hq] at hnd
    obtain ⟨hner, hndr⟩ := List.nodup_cons.1 hnd
    -- an equation that changes nothing
    have idle : ∀ (v : LState ι), e < 3 → (∀ i o, i = q.ins.map (Propagate.read (bOps ι) s.env) →
        o = q.outs.map (Propagate.read (bOps ι) s.env) → (q.rule i o).1 = i ∧ (q.rule i o).2.1 = o) →
        (exec (bOps ι) s.env q).2.2.2 = v →
        (e = 0 → v = none) → (e ≠ 0 → v = none ∨ v = some (some (fun _ => d [] [some 1]))) →
        LpInv d I env ⟨(exec (bOps ι) s.env q).1, q', fun i => if i = e then some (exec (bOps ι) s.env q).2.2.2 else s.states i⟩ := by
      intro v he3 hsame hv hv0 hv1
      obtain ⟨x1, x2⟩ := same_exec s.env q hsame
      rw [x2] at hp
      cases hp
      have hQ : (fun k => k + 3 ∈ rst) = (fun k => k + 3 ∈ s.queue) := by
        funext k
        rw [hq]
        apply propext
        rw [List.mem_cons]
        constructor
        · exact .inr
        · rintro (h | h)
          · omega
          · exact h
      refine ⟨by rw [x1]; exact h.lifted, h.key, hndr, by rw [hQ]; exact h.inv, ?_, ?_, ?_, ?_⟩
      · show Option.join (if 0 = e then _ else _) = none
        split
        · rename_i h0; rw [hv]; exact hv0 h0.symm
        · exact h.st0
      · show Option.join (if 1 = e then _ else _) = none ∨ Option.join (if 1 = e then _ else _) = _
        split
        · rename_i h0; rw [hv]; exact hv1 (by omega)
        · exact h.st1
      · show Option.join (if 2 = e then _ else _) = none ∨ Option.join (if 2 = e then _ else _) = _
        split
        · rename_i h0; rw [hv]; exact hv1 (by omega)
        · exact h.st2
      · intro k
        show Option.join (if k + 3 = e then _ else _) = none ∨ Option.join (if k + 3 = e then _ else _) = _
        rw [if_neg (by omega)]
        exact h.st3 k
    obtain ⟨k6, k7, k8⟩ := h.key
    rw [eqn_at] at he
    obtain _ | _ | _ | e := e
    · obtain rfl : (⟨[.var 6], [.var 7, .var 8], (NOp.det (bDef split)).rule⟩ : Eqn (BCell ι) F (LState ι)) = q :=
        Option.some.inj he
      refine ⟨env, idle none (by omega) ?_ rfl (fun _ => rfl) (fun _ => .inl rfl)⟩
      rintro i o rfl rfl
      simp [Propagate.read, h.lifted, k6, k7, k8, lift, NOp.rule, bDef, tops]
    · obtain rfl : (⟨[.var 7], [.var 0], (NOp.rv 0 d).rule⟩ : Eqn (BCell ι) F (LState ι)) = q := Option.some.inj he
      refine ⟨env, idle _ (by omega) (fun i o _ _ => rvRule_id _ _ _ _) rfl (fun h => by omega) (fun _ => ?_)⟩
      rcases hI.x1 _ _ h.inv with h0 | ⟨l, h0⟩
      · left; simp [exec, NOp.rule, rvRule, Propagate.read, h.lifted, h0, lift, tops]
      · right; simp [exec, NOp.rule, rvRule, Propagate.read, h.lifted, h0, lift, tops]
    · obtain rfl : (⟨[.var 8], [.var 1], (NOp.rv 0 d).rule⟩ : Eqn (BCell ι) F (LState ι)) = q := Option.some.inj he
      refine ⟨env, idle _ (by omega) (fun i o _ _ => rvRule_id _ _ _ _) rfl (fun h => by omega) (fun _ => ?_)⟩
      rcases hI.x2 _ _ h.inv with h0 | ⟨l, h0⟩
      · left; simp [exec, NOp.rule, rvRule, Propagate.read, h.lifted, h0, lift, tops]
      · right; simp [exec, NOp.rule, rvRule, Propagate.read, h.lifted, h0, lift, tops]
    · clear idle
      have he' : (rest[e]?).map NEqn.eqn = some q := by simpa [lpProg] using he
      obtain ⟨nq, hnq, rfl⟩ := Option.map_eq_some_iff.1 he'
      have hlt : e < rest.length := (List.getElem?_eq_some_iff.1 hnq).1
      have h2 : J'.eqns[e]? = some (J'.eqns[e]'(hR.len ▸ hlt)) := List.getElem?_eq_getElem (hR.len ▸ hlt)
      generalize J'.eqns[e]'(hR.len ▸ hlt) = qq at h2
      have hag := hR.agrees e _ _ hnq h2
      obtain ⟨x1, x2, x3⟩ := agrees_exec _ _ hag env
      have hpe : progressed (bOps ι) (nq.eqn.ins ++ nq.eqn.outs) (nq.eqn.ins.map (Propagate.read (bOps ι) s.env) ++
          nq.eqn.outs.map (Propagate.read (bOps ι) s.env)) ((exec (bOps ι) s.env nq.eqn).2.1 ++
          (exec (bOps ι) s.env nq.eqn).2.2.1) = progressed iOps (qq.ins ++ qq.outs)
          (qq.ins.map (Propagate.read iOps env) ++ qq.outs.map (Propagate.read iOps env))
          ((exec iOps env qq).2.1 ++ (exec iOps env qq).2.2.1) := by
        rw [h.lifted, x2, x3, hag.1, hag.2.1, lift_reads, lift_reads,
          ← List.map_append (f := lift) (l₁ := List.map _ _), ← List.map_append (f := lift) (l₁ := (exec iOps _ _).2.1),
          lift_progressed]
      have hlow : ∀ x, 5 < x → (exec iOps env qq).1 x = env x := by
        intro x hx
        have hn : some x ∉ (qq.ins ++ qq.outs).map Atom.node := fun hm => by
          have := hR.low x e ⟨qq, h2, hm⟩
          omega
        rw [List.map_append, List.mem_append, not_or] at hn
        simp only [exec]
        rw [writeAll_frame _ _ _ _ _ hn.2, writeAll_frame _ _ _ _ _ hn.1]
      have hmem : ∀ k, k ∈ q' ↔ k ∈ rst ∨ (k ≠ e + 3 ∧ ∃ x ∈ progressed iOps (qq.ins ++ qq.outs)
          (qq.ins.map (Propagate.read iOps env) ++ qq.outs.map (Propagate.read iOps env))
          ((exec iOps env qq).2.1 ++ (exec iOps env qq).2.2.1), Nbr (lpProg split d rest).jaxpr x k) := by
        intro k
        rw [← hpe]
        exact hp.mem k
      refine ⟨(exec iOps env qq).1, ?_, ?_, hp.nodup hndr, ?_, ?_, ?_, ?_, ?_⟩
      · show (exec (bOps ι) s.env nq.eqn).1 = _
        rw [h.lifted]; exact x1
      · rw [hlow 6 (by omega), hlow 7 (by omega), hlow 8 (by omega)]
        exact h.key
      · refine hI.trans env _ _ e qq h2 h.inv (by rw [hq]; simp) ?_ ?_ ?_
        · intro k hk hm
          rw [hq] at hm
          exact (hmem _).2 (.inl ((List.mem_cons.1 hm).resolve_left (by omega)))
        · intro x hx0 hx1 k hk hn
          refine (hmem _).2 (.inr ⟨by omega, x, ?_, (lp_nbr split d rest J' hR x k).2 hn⟩)
          rw [← hpe]
          refine top_progressed (lp_sized split d rest J' hR) (List.mem_of_getElem? (by rw [eqn_at]; exact he)) s.env x ?_ ?_
          · rw [h.lifted]; simp [hx0, lift]
          · rw [h.lifted, x1]
            intro h0
            apply hx1
            rcases hc : (exec iOps env qq).1 x with _ | c
            · rfl
            · simp [hc, lift] at h0
        · intro k hm
          rcases (hmem _).1 hm with h' | ⟨h', x, hx, hn⟩
          · exact ⟨fun hk => hner (hk ▸ h'), .inl (by rw [hq]; exact List.mem_cons_of_mem _ h')⟩
          · exact ⟨by omega, .inr ⟨x, Inverse.Nested.progressed_none _ _ _ x hx, (lp_nbr split d rest J' hR x k).1 hn⟩⟩
      · exact h.st0
      · exact h.st1
      · exact h.st2
      · intro k
        show Option.join (if k + 3 = e + 3 then _ else _) = none ∨ Option.join (if k + 3 = e + 3 then _ else _) = _
        split
        · rw [h.lifted]
          exact hR.state nq (List.mem_of_getElem? hnq) env
        · exact h.st3 k

theorem lp_init (split d) (rest : List (NEqn ι)) (J' : Jaxpr ICell F Bool) (hR : Rest rest J') (I)
    (h0 : ∀ (env : Env ICell) (Q : Nat → Prop), (∀ z, env z = if z = 2 then some (some (Real.exp 1), some 0) else
      if z = 5 then some (some 1, some 0) else none) → (∀ x k, (x = 2 ∨ x = 5) → Nbr J' x k → Q k) → I env Q)
    (s : St (BCell ι) (LState ι)) (h : Init (bOps ι) (lpProg split d rest).jaxpr [] [none]
      [some (fun _ => (some (Real.exp 1), some 0)), some (fun _ => (some 1, some 0))] s) :
    LpInv d I (fun z => if z = 2 then some (some (Real.exp 1), some 0) else
      if z = 5 then some (some 1, some 0) else none) s := by
  obtain ⟨henv, hq, hst⟩ := h
  refine ⟨?_, by simp, hq.1, h0 _ _ (fun _ => rfl) ?_, by rw [hst]; rfl, .inl (by rw [hst]; rfl), .inl (by rw [hst]; rfl),
    fun k => .inl (by rw [hst]; rfl)⟩
  · rw [henv]
    unfold initEnv
    rw [writeAll_nones]
    · funext z
      simp only [lpProg, NProg.jaxpr, writeAll, write, bOps]
      by_cases z2 : z = 2
      · subst z2; simp [lift]
      by_cases z5 : z = 5
      · subst z5; simp [lift]
      by_cases z6 : z = 6
      · subst z6; simp [lift]
      simp [z2, z5, z6, lift]
    · intro j x c h1 h2
      rw [List.getElem?_map, h1] at h2
      simp only [Option.map_some, Option.some.injEq] at h2
      rw [← h2]; rfl
  · intro x k hx hn
    refine (hq.2 _).2 ⟨x, ?_, (lp_nbr split d rest J' hR x k).2 hn⟩
    rcases hx with rfl | rfl <;> simp [lpProg, NProg.jaxpr, Atom.node]

theorem lp_value (split d) (rest : List (NEqn ι)) (J' : Jaxpr ICell F Bool) (hR : Rest rest J') (I) (hI : Good J' I)
    (h0 : ∀ (env : Env ICell) (Q : Nat → Prop), (∀ z, env z = if z = 2 then some (some (Real.exp 1), some 0) else
      if z = 5 then some (some 1, some 0) else none) → (∀ x k, (x = 2 ∨ x = 5) → Nbr J' x k → Q k) → I env Q)
    (l1 l2 : ℝ) (hend : ∀ env Q, I env Q → (∀ k, ¬ Q k) → env 0 = some (some 1, some l1) ∧ env 1 = some (some 1, some l2))
    (δ : ℝ) (hδ : d [] [some 1] = some δ) (res : Option (ι → F))
    (h : LogProb (lpProg split d rest) [] [fun _ => some (Real.exp 1), fun _ => some 1] res) :
    res = some (fun _ => some (2 * δ + (l1 + l2))) := by
  obtain ⟨s, hrun, rfl⟩ := h
  have hrun' := hrun
  obtain ⟨s0, hi, hs, hq⟩ := hrun
  have hinv : ∃ env, LpInv d I env s := by
    clear hq hrun'
    induction hs with
    | refl => exact ⟨_, lp_init split d rest J' hR I h0 s0 hi⟩
    | tail t u _ hst ih =>
      obtain ⟨env, ih⟩ := ih
      exact lp_step split d rest J' hR I hI env t u ih hst
  obtain ⟨env, hinv⟩ := hinv
  obtain ⟨e0, e1⟩ := hend env _ hinv.inv (by rw [hq]; simp)
  have hE0 : s.env 0 = some (fun _ => (some 1, some l1)) := by rw [hinv.lifted]; simp [e0, lift]
  have hE1 : s.env 1 = some (fun _ => (some 1, some l2)) := by rw [hinv.lifted]; simp [e1, lift]
  have hmem : ∀ q ∈ (lpProg split d rest).eqns, q.op.reg = true → q = ⟨.rv 0 d, [.var 7], [.var 0]⟩ ∨
      q = ⟨.rv 0 d, [.var 8], [.var 1]⟩ := by
    intro q hq hreg
    simp only [lpProg, List.mem_cons] at hq
    rcases hq with rfl | rfl | rfl | hq
    · simp [NOp.reg] at hreg
    · exact .inl rfl
    · exact .inr rfl
    · rw [hR.noreg q hq] at hreg; simp at hreg
  obtain ⟨t, ht⟩ := (nested_log_prob_returns_iff _ (lp_sized split d rest J' hR) (by
      intro q hq hreg
      rcases hmem q hq hreg with rfl | rfl
      · exact ⟨0, by simp [Atom.node]⟩
      · exact ⟨1, by simp [Atom.node]⟩) _ _ s hrun').2 ⟨by
        intro q hq nc d' hop x hx
        rcases hmem q hq (by rw [hop]; rfl) with rfl | rfl
        · obtain ⟨rfl, rfl⟩ : 0 = nc ∧ d = d' := by simpa using hop
          obtain rfl : x = 0 := by simpa [NEqn.needs, Atom.node] using hx
          rw [hE0]; simp
        · obtain ⟨rfl, rfl⟩ : 0 = nc ∧ d = d' := by simpa using hop
          obtain rfl : x = 1 := by simpa [NEqn.needs, Atom.node] using hx
          rw [hE1]; simp, by
        intro e q r he hop hst
        obtain _ | _ | _ | e := e
        · have := hinv.st0; rw [hst] at this; simp at this
        · have := hinv.st1; rw [hst] at this; simp at this
        · have := hinv.st2; rw [hst] at this; simp at this
        · have := hinv.st3 e; rw [hst] at this; simp at this, by
        intro e q r he hop
        rcases hmem q (List.mem_of_getElem? he) (by rw [hop]; rfl) with rfl | rfl <;> simp at hop⟩
  rw [ht]
  obtain ⟨h1, rfl⟩ := (finish_iff _ s t).1 ht
  have hs1 : (s.states 1).join = some (some (fun _ => d [] [some 1])) :=
    hinv.st1.resolve_left ((h1 1 ⟨.rv 0 d, [.var 7], [.var 0]⟩ rfl).2 rfl)
  have hs2 : (s.states 2).join = some (some (fun _ => d [] [some 1])) :=
    hinv.st2.resolve_left ((h1 2 ⟨.rv 0 d, [.var 8], [.var 1]⟩ rfl).2 rfl)
  congr 1
  funext j
  have hrest : ∀ (l : List (NEqn ι)) (k : Nat), (∀ q ∈ l, q ∈ rest) →
      sumF ((l.zipIdx (k + 3)).map (term s j)) = some 0 := by
    intro l
    induction l with
    | nil => intro k _; rfl
    | cons q l ih =>
      intro k hl
      simp only [List.zipIdx_cons, List.map_cons, sumF, List.foldr_cons]
      have h2 := ih (k + 1) (fun q hq => hl q (by simp [hq]))
      simp only [sumF] at h2
      rw [show k + 3 + 1 = k + 1 + 3 from by omega, h2]
      have h3 : term s j (q, k + 3) = some 0 := by
        simp only [term, hR.noreg q (hl q (by simp))]
        rcases hinv.st3 k with h | h <;> rw [h]
        simp [addF_zero_left]
      rw [h3]; simp [addF]
  have hr := hrest rest 0 (fun _ h => h)
  simp only [Nat.zero_add] at hr
  simp only [lpProg, List.zipIdx_cons, List.map_cons, sumF, List.foldr_cons] at hr ⊢
  rw [show (0 + 1 + 1 + 1 : Nat) = 3 from rfl, hr]
  simp only [term, hinv.st0, Nat.zero_add, hs1, hs2, show (1 + 1 : Nat) = 2 from rfl, NOp.reg, List.map_cons, List.map_nil,
    Propagate.read, hE0, hE1, ildjSum, List.foldl_cons, List.foldl_nil, hδ]
  simp [addF]
  ring

/-! ### With and without the call -/

theorem call_agrees (r : Rule ι) (hr : Calls lpBody r) (σ : Inverse.Nested.Order) (hσ : σ.Valid) :
    Agrees (⟨[.var 0, .var 1], [.var 3, .var 4], (NOp.call r).rule⟩ : Eqn (BCell ι) F (LState ι))
      ⟨[.var 0, .var 1], [.var 3, .var 4], σ 0 Inverse.Nested.inner⟩ := by
  refine ⟨rfl, rfl, fun a b ha hb => ?_⟩
  obtain ⟨x1, x2, rfl⟩ := List.length_eq_two.1 ha
  obtain ⟨t1, t2, rfl⟩ := List.length_eq_two.1 hb
  simp only [NOp.rule, List.map_cons, List.map_nil, call_rule_value r hr, Inverse.Nested.call_value σ hσ]
  exact ⟨trivial, trivial⟩

theorem bUn_sized (p : Un) (i o : List (BCell ι)) (hi : i.length = 1) (ho : o.length = 1) :
    (bUn p i o).1.length = 1 ∧ (bUn p i o).2.length = 1 := by
  obtain ⟨a, rfl⟩ := List.length_eq_one_iff.1 hi
  obtain ⟨b, rfl⟩ := List.length_eq_one_iff.1 ho
  cases a <;> cases b <;> exact ⟨rfl, rfl⟩

theorem bBin_sized (p : Bin) (i o : List (BCell ι)) (hi : i.length = 2) (ho : o.length = 1) :
    (bBin p i o).1.length = 2 ∧ (bBin p i o).2.length = 1 := by
  obtain ⟨a, c, rfl⟩ := List.length_eq_two.1 hi
  obtain ⟨b, rfl⟩ := List.length_eq_one_iff.1 ho
  cases a <;> cases b <;> cases c <;> exact ⟨rfl, rfl⟩

theorem call_rest (r : Rule ι) (hr : Calls lpBody r) (σ : Inverse.Nested.Order) (hσ : σ.Valid) :
    Rest [⟨.det (bUn .exp), [.var 0], [.var 2]⟩, ⟨.call r, [.var 0, .var 1], [.var 3, .var 4]⟩,
      ⟨.det (bBin .add), [.var 3, .var 4], [.var 5]⟩] (Inverse.Nested.outer σ) := by
  refine ⟨rfl, ?_, ?_, ?_, ?_, ?_⟩
  · intro e q q' h1 h2
    obtain _ | _ | _ | e := e
    · simp [Inverse.Nested.outer] at h1 h2
      subst h1 h2
      exact un_agrees _ _ _
    · simp [Inverse.Nested.outer] at h1 h2
      subst h1 h2
      exact call_agrees r hr σ hσ
    · simp [Inverse.Nested.outer] at h1 h2
      subst h1 h2
      exact bin_agrees _ _ _ _
    · simp at h1
  · intro x k h
    rw [Inverse.Nested.outer_nbr] at h
    omega
  · intro q hq env
    simp only [List.mem_cons, List.not_mem_nil, or_false] at hq
    rcases hq with rfl | rfl | rfl
    · left; rfl
    · right
      simp only [exec, NOp.rule, List.map_cons, List.map_nil, lift_read]
      rw [call_rule_value r hr]
    · left; rfl
  · intro q hq
    simp only [List.mem_cons, List.not_mem_nil, or_false] at hq
    rcases hq with rfl | rfl | rfl <;> rfl
  · intro q hq i o hi ho
    simp only [List.mem_cons, List.not_mem_nil, or_false] at hq
    rcases hq with rfl | rfl | rfl
    · exact bUn_sized _ i o hi ho
    · obtain ⟨s, -, heq⟩ := hr i o hi ho
      simp only [NOp.rule, heq]
      simp [lpBody]
    · exact bBin_sized _ i o hi ho

theorem flat_rest : Rest (ι := ι) [⟨.det (bUn .exp), [.var 0], [.var 2]⟩, ⟨.det (bBin .mul), [.lit (some 2), .var 0], [.var 3]⟩,
   ⟨.det (bUn .neg), [.var 1], [.var 4]⟩, ⟨.det (bBin .add), [.var 3, .var 4], [.var 5]⟩] Inverse.Nested.flatJ := by
  refine ⟨rfl, ?_, ?_, ?_, ?_, ?_⟩
  · intro e q q' h1 h2
    obtain _ | _ | _ | _ | e := e
    · simp [Inverse.Nested.flatJ] at h1 h2
      subst h1 h2
      exact un_agrees _ _ _
    · simp [Inverse.Nested.flatJ] at h1 h2
      subst h1 h2
      exact bin_agrees _ _ _ _
    · simp [Inverse.Nested.flatJ] at h1 h2
      subst h1 h2
      exact un_agrees _ _ _
    · simp [Inverse.Nested.flatJ] at h1 h2
      subst h1 h2
      exact bin_agrees _ _ _ _
    · simp at h1
  · intro x k h
    rw [Inverse.Nested.flat_nbr] at h
    omega
  · intro q hq env
    simp only [List.mem_cons, List.not_mem_nil, or_false] at hq
    rcases hq with rfl | rfl | rfl | rfl <;> exact .inl rfl
  · intro q hq
    simp only [List.mem_cons, List.not_mem_nil, or_false] at hq
    rcases hq with rfl | rfl | rfl | rfl <;> rfl
  · intro q hq i o hi ho
    simp only [List.mem_cons, List.not_mem_nil, or_false] at hq
    rcases hq with rfl | rfl | rfl | rfl
    · exact bUn_sized _ i o hi ho
    · exact bBin_sized _ i o hi ho
    · exact bUn_sized _ i o hi ho
    · exact bBin_sized _ i o hi ho

theorem cex_good (σ : Inverse.Nested.Order) (hσ : σ.Valid) : Good (Inverse.Nested.outer σ) Inverse.Nested.CexState := by
  refine ⟨fun env Q Q' e q he h _ hr hp _ => Inverse.Nested.cex_trans σ hσ env Q Q' e q he h hr hp, ?_, ?_⟩
  · rintro env Q ⟨-, -, ⟨a, -⟩ | ⟨a, -⟩ | ⟨⟨l, a⟩, -⟩ | ⟨⟨l, a⟩, -⟩ | ⟨a, -⟩⟩
    · exact .inl a
    all_goals exact .inr ⟨_, a⟩
  · rintro env Q ⟨-, -, ⟨-, a, -⟩ | ⟨-, a, -⟩ | ⟨-, a, -⟩ | ⟨-, a, -⟩ | ⟨-, a, -⟩⟩
    · exact .inl a
    · exact .inl a
    · exact .inl a
    · exact .inl a
    · exact .inr ⟨_, a⟩

theorem flat_good : Good Inverse.Nested.flatJ Inverse.Nested.FlatState := by
  refine ⟨fun env Q Q' e q he h hm hr hp hn => Inverse.Nested.flat_trans env Q Q' e q he h hm hr hp hn, ?_, ?_⟩
  · rintro env Q ⟨-, -, ⟨a, -⟩ | ⟨a, -⟩⟩
    · exact .inl a
    · exact .inr ⟨_, a⟩
  · rintro env Q ⟨-, -, ⟨-, a, -⟩ | ⟨-, ⟨a, -⟩ | ⟨-, -, ⟨a, -⟩ | ⟨-, ⟨a, -⟩ | a⟩⟩⟩⟩
    · exact .inl a
    · exact .inl a
    · exact .inl a
    · exact .inl a
    · exact .inr ⟨_, a⟩

/-- C58 is false of programs of several variables.  Let `δ` be the log-density of `D` at 1.  With `(2 * x1, -x2)`
computed in a call, `log_prob` of the sample `(exp 1, 1)`, which comes from `x1 = x2 = 1`, is `2 δ - log 2` in every
order of propagation ... -/
theorem C58_call_changes_density (split) (d : List F → List F → F) (r : Rule ι) (hr : Calls lpBody r) (δ : ℝ)
    (hδ : d [] [some 1] = some δ) (res : Option (ι → F)) :
    LogProb (lpCall split d r) [] [fun _ => some (Real.exp 1), fun _ => some 1] res ↔
      res = some (fun _ => some (2 * δ - Real.log 2)) := by
  obtain ⟨σ, hσ⟩ := Inverse.Nested.order_exists
  have hval : ∀ res, LogProb (lpCall split d r) [] [fun _ => some (Real.exp 1), fun _ => some 1] res →
      res = some (fun _ => some (2 * δ - Real.log 2)) := by
    intro res h
    have := lp_value split d _ _ (call_rest r hr σ hσ) _ (cex_good σ hσ) ?_ (-Real.log 2) 0 ?_ δ hδ res h
    · rw [this]; simp [sub_eq_add_neg]
    · intro env Q he hQ
      refine ⟨by rw [he]; rfl, by rw [he]; rfl, .inl ⟨by rw [he]; rfl, by rw [he]; rfl, by rw [he]; rfl, by rw [he]; rfl, ?_⟩⟩
      exact hQ 2 0 (.inl rfl) ((Inverse.Nested.outer_nbr σ 2 0).2 (by decide))
    · rintro env Q ⟨-, -, ⟨-, -, -, -, f⟩ | ⟨-, -, -, -, f⟩ | ⟨-, -, -, -, f⟩ | ⟨-, -, -, -, f⟩ | ⟨a, b, -⟩⟩ hQ
      · exact absurd f (hQ 0)
      · exact absurd f (hQ 1)
      · exact absurd f (hQ 2)
      · exact absurd f (hQ 1)
      · exact ⟨a, b⟩
  refine ⟨hval res, ?_⟩
  rintro rfl
  obtain ⟨res, h⟩ := nested_log_prob_terminates (lpCall split d r) (lp_sized split d _ _ (call_rest r hr σ hσ)) []
    [fun _ => some (Real.exp 1), fun _ => some 1]
  rw [← hval res h]
  exact h

/-- ... and without the call it is `2 δ - 1`, as it should be: the Jacobian of `(exp x1, 2 x1 - x2)` at `(1, 1)` is
`[[exp 1, 0], [2, -1]]`. -/
theorem C58_density_without_the_call (split) (d : List F → List F → F) (δ : ℝ)
    (hδ : d [] [some 1] = some δ) (res : Option (ι → F)) :
    LogProb (lpFlat split d) [] [fun _ => some (Real.exp 1), fun _ => some 1] res ↔
      res = some (fun _ => some (2 * δ - 1)) := by
  have hval : ∀ res, LogProb (lpFlat (ι := ι) split d) [] [fun _ => some (Real.exp 1), fun _ => some 1] res →
      res = some (fun _ => some (2 * δ - 1)) := by
    intro res h
    have := lp_value split d _ _ flat_rest _ flat_good ?_ (-1) 0 ?_ δ hδ res h
    · rw [this]; simp [sub_eq_add_neg]
    · intro env Q he hQ
      refine ⟨by rw [he]; rfl, by rw [he]; rfl, .inl ⟨by rw [he]; rfl, by rw [he]; rfl, by rw [he]; rfl, by rw [he]; rfl, ?_⟩⟩
      exact hQ 2 0 (.inl rfl) ((Inverse.Nested.flat_nbr 2 0).2 (by decide))
    · rintro env Q ⟨-, -, ⟨-, -, -, -, f⟩ | ⟨a, ⟨-, -, -, f⟩ | ⟨-, -, ⟨-, -, f⟩ | ⟨-, ⟨-, f⟩ | b⟩⟩⟩⟩ hQ
      · exact absurd f (hQ 0)
      · exact absurd f (hQ 1)
      · exact absurd f (hQ 3)
      · exact absurd f (hQ 2)
      · exact ⟨a, b⟩
  refine ⟨hval res, ?_⟩
  rintro rfl
  obtain ⟨res, h⟩ := nested_log_prob_terminates (lpFlat (ι := ι) split d) (lp_sized split d _ _ flat_rest) []
    [fun _ => some (Real.exp 1), fun _ => some 1]
  rw [← hval res h]
  exact h

/-- The call of `C58_call_changes_density` exists, and the two densities differ. -/
example : (∃ r : Rule Unit, Calls lpBody r) ∧ ∀ δ : ℝ, 2 * δ - Real.log 2 ≠ 2 * δ - 1 := by
  refine ⟨calls_exists lpBody ?_, fun δ h => ?_⟩
  · intro q hq i o hi ho
    rw [body_eqns] at hq
    simp only [List.mem_cons, List.not_mem_nil, or_false] at hq
    rcases hq with rfl | rfl
    · exact bBin_sized _ i o hi ho
    · exact bUn_sized _ i o hi ho
  · have h2 := Real.log_lt_sub_one_of_pos (x := 2) (by norm_num) (by norm_num)
    linarith

end Verif.LogProb.Nested
