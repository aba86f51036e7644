import Verif.Inverse.Nested
import Verif.Inverse.Graph
import Verif.Inverse.Chain

/-!
# C71: calls inside a function and its inverse

Values: wrapping parts of a function in calls, to any depth, never makes `inverse` return anything but the inputs.
-/
namespace Verif.Inverse.Nested

open Verif.Propagate

/-! ### Specification -/

/-- The operation takes `n` operands and returns `m` results. -/
def _root_.Verif.Inverse.Op.Fits : Op → Nat → Nat → Prop
  | .un _, n, m => n = 1 ∧ m = 1
  | .bin _, n, m => n = 2 ∧ m = 1
  | .other h, n, m => ∀ xs : List F, xs.length = n → (h xs).length = m

/-- Every equation has as many operands and results as its primitive or its callee. -/
def wfAll : List CEqn → Prop
  | [] => True
  | .prim op i o :: es => op.Fits i.length o.length ∧ wfAll es
  | .call _ iv ov body i o :: es => i.length = iv.length ∧ o.length = ov.length ∧ wfAll body ∧ wfAll es

/-- `val` gives the variables the values of an execution in which every operation, also inside of calls, is on the
branch of its registered inverse.  The variables of a callee have values of their own. -/
def execAll : List CEqn → (Nat → ℝ) → Prop
  | [], _ => True
  | .prim op i o :: es, val => op.eval (i.map (aval val)) = o.map (aval val) ∧ op.ok (i.map (aval val)) ∧
      (∀ a ∈ o, ∀ v, a ≠ .lit v) ∧ execAll es val
  | .call _ iv ov body i o :: es, val =>
      (∃ w, iv.map (aval w) = i.map (aval val) ∧ ov.map (aval w) = o.map (aval val) ∧ execAll body w) ∧ execAll es val

/-- The program, executed on `xs`, returns `ys`, with every operation on the branch of its registered inverse. -/
def CProg.Executes (P : CProg) (xs ys : List F) : Prop :=
  ∃ val, P.invars.map (aval val) = xs ∧ P.outvars.map (aval val) = ys ∧ execAll P.eqns val

/-! ### Existence of runs -/

open Classical in
theorem completes_exists (J : Jaxpr ICell F Bool) (hs : Sized J) (i o : List ICell) : ∃ s, Completes J i o s := by
  have hinit : ∃ s0 : St ICell Bool, Init iOps J [] i o s0 := by
    refine ⟨⟨_, (List.range J.eqns.length).filter (fun e => decide (∃ x, some x ∈ (J.outvars ++ J.invars ++
      J.constvars).map Atom.node ∧ Nbr J x e)), fun _ => none⟩, rfl, ⟨List.nodup_range.filter _, fun e => ?_⟩, fun _ => rfl⟩
    simp only [List.mem_filter, List.mem_range, decide_eq_true_eq, and_iff_right_iff_imp]
    rintro ⟨x, -, q, hq, -⟩
    exact (List.getElem?_eq_some_iff.1 hq).1
  obtain ⟨s0, h0⟩ := hinit
  obtain ⟨t, ht, hq⟩ := propagate_completes iOps J hs (fun c => if c.isSome then 0 else 1)
      (by intro a b; cases a <;> cases b <;> simp [iOps])
      (by intro a b; cases a <;> cases b <;> simp [iOps]) _ _ _ s0 s0 h0 (.refl _)
  exact ⟨t, s0, h0, ht, hq⟩

open Classical in
/-- There are valid orders. -/
theorem order_exists : ∃ σ : Order, σ.Valid := by
  refine ⟨fun _ J i o => if h : Sized J then
    (J.invars.map (Propagate.read iOps (Classical.choose (completes_exists J h i o)).env),
      J.outvars.map (Propagate.read iOps (Classical.choose (completes_exists J h i o)).env), false) else ([], [], false), ?_⟩
  intro id J i o hs _ _
  exact ⟨_, Classical.choose_spec (completes_exists J hs i o), by simp [hs]⟩

theorem mapM_some_eq {α : Type} (l : List (Option α)) (r : List α) (h : l.mapM id = some r) : l = r.map some := by
  induction l generalizing r with
  | nil => simp at h; subst h; rfl
  | cons a l ih =>
    simp only [List.mapM_cons, id_eq, Option.bind_eq_bind, Option.bind_eq_some_iff, Option.pure_def, Option.some.injEq] at h
    obtain ⟨b, rfl, bs, hbs, rfl⟩ := h
    rw [List.map_cons, ← ih bs hbs]

theorem op_sized (op : Op) (n m : Nat) (h : op.Fits n m) (i o : List ICell) (hi : i.length = n) (ho : o.length = m) :
    (op.rule i o).1.length = n ∧ (op.rule i o).2.1.length = m := by
  cases op with
  | un p =>
    obtain ⟨rfl, rfl⟩ := h
    obtain ⟨a, rfl⟩ := List.length_eq_one_iff.1 hi
    obtain ⟨b, rfl⟩ := List.length_eq_one_iff.1 ho
    rcases a with _ | ⟨a1, a2⟩ <;> rcases b with _ | ⟨b1, b2⟩ <;> simp [Op.rule, unRule]
  | bin p =>
    obtain ⟨rfl, rfl⟩ := h
    obtain ⟨a, c, rfl⟩ := List.length_eq_two.1 hi
    obtain ⟨b, rfl⟩ := List.length_eq_one_iff.1 ho
    rcases a with _ | ⟨a1, a2⟩ <;> rcases b with _ | ⟨b1, b2⟩ <;> rcases c with _ | ⟨c1, c2⟩ <;> simp [Op.rule, binRule]
  | other h' =>
    simp only [Op.rule, defRule]
    split
    · split
      · rename_i vs hvs
        refine ⟨hi, ?_⟩
        have hl : vs.length = i.length := by
          rw [mapM_some_eq i vs hvs, List.length_map]
        rw [List.length_map]
        exact h _ (by rw [List.length_map, hl, hi])
      · exact ⟨hi, ho⟩
    · split <;> exact ⟨hi, ho⟩

theorem sized_all (σ : Order) (hσ : σ.Valid) : ∀ (es : List CEqn), wfAll es → ∀ q ∈ eqnsOf σ es, ∀ i o,
    i.length = q.ins.length → o.length = q.outs.length →
    (q.rule i o).1.length = q.ins.length ∧ (q.rule i o).2.1.length = q.outs.length
  | [], _, q, hq => by simp [eqnsOf] at hq
  | .prim op a b :: es, h, q, hq => by
    simp only [eqnsOf, List.mem_cons] at hq
    simp only [wfAll] at h
    rcases hq with rfl | hq
    · exact fun i o hi ho => op_sized op _ _ h.1 i o hi ho
    · exact sized_all σ hσ es h.2 q hq
  | .call id iv ov body a b :: es, h, q, hq => by
    simp only [eqnsOf, List.mem_cons] at hq
    simp only [wfAll] at h
    obtain ⟨h1, h2, h3, h4⟩ := h
    rcases hq with rfl | hq
    · intro i o hi ho
      obtain ⟨s, -, heq⟩ := hσ id ⟨[], iv, ov, eqnsOf σ body⟩ i o (sized_all σ hσ body h3) (hi.trans h1) (ho.trans h2)
      simp only [heq, List.length_map]
      exact ⟨h1.symm, h2.symm⟩
    · exact sized_all σ hσ es h4 q hq

/-! ### Values -/

/-- The rule of an equation turns true cells into true cells. -/
def RuleTells (val : Nat → ℝ) (q : Eqn ICell F Bool) : Prop :=
  ∀ i o, List.Forall₂ Tells (q.ins.map (aval val)) i → List.Forall₂ Tells (q.outs.map (aval val)) o →
    List.Forall₂ Tells (q.ins.map (aval val)) (q.rule i o).1 ∧ List.Forall₂ Tells (q.outs.map (aval val)) (q.rule i o).2.1

theorem tells_get (val : Nat → ℝ) : ∀ (as : List (Atom F)) (cs : List ICell), List.Forall₂ Tells (as.map (aval val)) cs →
    ∀ (k x : Nat) (c : ICell), as[k]? = some (Atom.var x) → cs[k]? = some c → Tells (some (val x)) c := by
  intro as
  induction as with
  | nil => intro cs _ k x c h1; simp at h1
  | cons a as ih =>
    intro cs hh k x c h1 h2
    cases hh with | cons h3 h4 =>
    cases k with
    | zero => simp at h1 h2; subst h1 h2; exact h3
    | succ k => exact ih _ h4 k x c (by simpa using h1) (by simpa using h2)

theorem tells_read (val : Nat → ℝ) (env : Env ICell) (henv : ∀ x, Tells (some (val x)) (env x)) (as : List (Atom F)) :
    List.Forall₂ Tells (as.map (aval val)) (as.map (Propagate.read iOps env)) := by
  induction as with
  | nil => exact .nil
  | cons a as ih =>
    refine .cons ?_ ih
    cases a with
    | lit v => exact tells_some _ _
    | var x => exact henv x
    | drop x => exact henv x

theorem run_tells (J : Jaxpr ICell F Bool) (hc : J.constvars = []) (val : Nat → ℝ) (hq : ∀ q ∈ J.eqns, RuleTells val q)
    (i o : List ICell) (hi : List.Forall₂ Tells (J.invars.map (aval val)) i)
    (ho : List.Forall₂ Tells (J.outvars.map (aval val)) o) (s : St ICell Bool) (h : Completes J i o s) :
    ∀ x, Tells (some (val x)) (s.env x) := by
  obtain ⟨s0, h0, hs, -⟩ := h
  refine propagate_sound iOps J (fun x => Tells (some (val x))) Tells ?_ [] _ _ ?_ ?_ ?_ s0 s h0 hs
  · refine ⟨?_, fun x => tells_none _, fun v => tells_some _ _, ?_⟩
    · intro x a b ha hb
      simp only [iOps]
      split
      · exact hb
      · exact ha
    · intro q hqm i o hi ho
      have conv : ∀ (R : Atom F → ICell → Prop), (∀ a c, R a c → Tells (aval val a) c) →
          ∀ (as : List (Atom F)) (cs : List ICell), List.Forall₂ R as cs →
          List.Forall₂ Tells (as.map (aval val)) cs := by
        intro R hR as cs hh
        induction hh with
        | nil => exact .nil
        | @cons a c as cs h1 h2 ih => exact .cons (hR _ _ h1) ih
      obtain ⟨r1, r2⟩ := hq q hqm i o (conv _ (by intro a c hac; cases a <;> exact hac) _ _ hi)
        (conv _ (by intro a c hac; cases a <;> exact hac) _ _ ho)
      exact ⟨tells_get val _ _ r1, tells_get val _ _ r2⟩
  · intro k x c h1; rw [hc] at h1; simp at h1
  · exact tells_get val _ _ hi
  · exact tells_get val _ _ ho

theorem tells_all (σ : Order) (hσ : σ.Valid) : ∀ (es : List CEqn), wfAll es → ∀ val, execAll es val →
    ∀ q ∈ eqnsOf σ es, RuleTells val q
  | [], _, _, _, q, hq => by simp [eqnsOf] at hq
  | .prim op a b :: es, h, val, hx, q, hq => by
    simp only [eqnsOf, List.mem_cons] at hq
    simp only [execAll] at hx
    simp only [wfAll] at h
    obtain ⟨x1, x2, x3, x4⟩ := hx
    rcases hq with rfl | hq
    · intro i o hi ho
      refine op.rule_tells _ _ x2 x1 ?_ i o hi ho
      intro hc
      obtain ⟨c, hc1, hc2⟩ := List.mem_map.1 hc
      cases c with
      | lit v => exact x3 _ hc1 v rfl
      | var x => simp [aval] at hc2
      | drop x => simp [aval] at hc2
    · exact tells_all σ hσ es h.2 val x4 q hq
  | .call id iv ov body a b :: es, h, val, hx, q, hq => by
    simp only [eqnsOf, List.mem_cons] at hq
    simp only [wfAll] at h
    obtain ⟨h1, h2, h3, h4⟩ := h
    simp only [execAll] at hx
    obtain ⟨⟨w, w1, w2, w3⟩, hx⟩ := hx
    rcases hq with rfl | hq
    · intro i o hi ho
      simp only at hi ho ⊢
      have li : i.length = iv.length := by rw [← hi.length_eq, List.length_map, h1]
      have lo : o.length = ov.length := by rw [← ho.length_eq, List.length_map, h2]
      obtain ⟨s, hs, heq⟩ := hσ id ⟨[], iv, ov, eqnsOf σ body⟩ i o (sized_all σ hσ body h3) li lo
      have := run_tells ⟨[], iv, ov, eqnsOf σ body⟩ rfl w (tells_all σ hσ body h3 w w3) i o (by rw [w1]; exact hi)
        (by rw [w2]; exact ho) s hs
      simp only [heq]
      rw [← w1, ← w2]
      exact ⟨tells_read w s.env this iv, tells_read w s.env this ov⟩
    · exact tells_all σ hσ es h4 val hx q hq

/-- **C71, values.**  For every function, parts of which are wrapped in calls to any depth, in every order of
propagation outside and inside of the calls: `inverse` of the outputs of an execution (on the branches of the registered
inverses) returns exactly the inputs of that execution, or raises. -/
theorem C71_values (σ : Order) (hσ : σ.Valid) (P : CProg) (hP : wfAll P.eqns) (xs ys : List F) (hx : P.Executes xs ys)
    (res : Option (List (F × F))) (h : InverseRun σ P ys res) : res = none ∨ ∃ r, res = some r ∧ r.map (·.1) = xs := by
  obtain ⟨val, rfl, rfl, hx⟩ := hx
  obtain ⟨s, hs, rfl⟩ := h
  rcases hm : (P.invars.map (Propagate.read iOps s.env)).mapM id with _ | r
  · exact .inl rfl
  refine .inr ⟨r, rfl, ?_⟩
  have htrue := run_tells (P.jaxpr σ) rfl val (tells_all σ hσ P.eqns hP val hx) _ _ ?_ ?_ s hs
  · exact forall2_some _ _ (tells_read val s.env htrue P.invars) r hm
  · show List.Forall₂ Tells (P.invars.map (aval val)) _
    clear * -
    induction P.invars with
    | nil => exact .nil
    | cons a as ih => exact .cons (tells_none _) ih
  · show List.Forall₂ Tells (P.outvars.map (aval val)) _
    clear * -
    induction P.outvars with
    | nil => exact .nil
    | cons a as ih => exact .cons (tells_some _ _) ih

/-- **C71, termination.**  `inverse` of a function with calls always comes to an end: there is a result, and no
infinite run. -/
theorem C71_terminates (σ : Order) (hσ : σ.Valid) (P : CProg) (hP : wfAll P.eqns) (ys : List F) :
    (∃ res, InverseRun σ P ys res) ∧
    ¬ ∃ run : Nat → St ICell Bool, Init iOps (P.jaxpr σ) [] (P.invars.map (fun _ => none))
      (ys.map (fun y => some (y, some 0))) (run 0) ∧ ∀ i, Step iOps (P.jaxpr σ) (run i) (run (i + 1)) := by
  refine ⟨?_, propagate_no_infinite_run iOps (P.jaxpr σ) (sized_all σ hσ P.eqns hP) (fun c => if c.isSome then 0 else 1)
      (by intro a b; cases a <;> cases b <;> simp [iOps]) (by intro a b; cases a <;> cases b <;> simp [iOps]) _ _ _⟩
  obtain ⟨s, hs⟩ := completes_exists (P.jaxpr σ) (sized_all σ hσ P.eqns hP) _ _
  exact ⟨_, s, hs, rfl⟩

/-! ### Chains -/

/-- A function of one variable: a registered primitive, or a call of a composition of such functions. -/
inductive Piece where
  | prim (p : Un)
  | call (id : Nat) (body : List Piece)

/-- The primitives, without the calls. -/
def flat : List Piece → List Un
  | [] => []
  | .prim p :: ps => p :: flat ps
  | .call _ body :: ps => flat body ++ flat ps

/-- The equations of a composition, from variable `k` on. -/
def toEqns : List Piece → Nat → List CEqn
  | [], _ => []
  | .prim p :: ps, k => .prim (.un p) [.var k] [.var (k + 1)] :: toEqns ps (k + 1)
  | .call id body :: ps, k =>
    .call id [.var 0] [.var body.length] (toEqns body 0) [.var k] [.var (k + 1)] :: toEqns ps (k + 1)

/-- The composition as a program. -/
def wrap (ps : List Piece) : CProg := ⟨[.var 0], [.var ps.length], toEqns ps 0⟩

/-- `r` does nothing without information, and computes the input from the output with `g`. -/
structure Link (r : Rule) (g : F × F → F × F) : Prop where
  nn : (r [none] [none]).1 = [none] ∧ (r [none] [none]).2.1 = [none]
  ns : ∀ c, (r [none] [some c]).1 = [some (g c)] ∧ (r [none] [some c]).2.1 = [some c]

/-- The equations `x_{k+1} = r x_k`. -/
def linkEqns (rs : List Rule) : List (Eqn ICell F Bool) := rs.mapIdx (fun i r => ⟨[.var i], [.var (i + 1)], r⟩)

/-- Their jaxpr. -/
def linkChain (rs : List Rule) : Jaxpr ICell F Bool := ⟨[], [.var 0], [.var rs.length], linkEqns rs⟩

/-- The composition of the inverses. -/
def pullAll (gs : List (F × F → F × F)) (c : F × F) : F × F := gs.foldr (fun g c => g c) c

theorem link_eqn (rs : List Rule) (e : Nat) : (linkChain rs).eqns[e]? =
    (rs[e]?).map (fun r => ⟨[Atom.var e], [Atom.var (e + 1)], r⟩) := by
  simp only [linkChain, linkEqns, List.getElem?_mapIdx]

theorem link_nbr (rs : List Rule) (x e : Nat) : Nbr (linkChain rs) x e ↔ e < rs.length ∧ (x = e ∨ x = e + 1) := by
  simp only [Nbr, link_eqn]
  constructor
  · rintro ⟨q, hq, hx⟩
    rcases hp : rs[e]? with _ | p
    · rw [hp] at hq; simp at hq
    · rw [hp] at hq
      simp only [Option.map_some, Option.some.injEq] at hq
      subst hq
      refine ⟨(List.getElem?_eq_some_iff.1 hp).1, ?_⟩
      simpa [Atom.node] using hx
  · rintro ⟨he, hx⟩
    exact ⟨_, by rw [List.getElem?_eq_getElem he]; rfl, by simpa [Atom.node] using hx⟩

/-- The invariant: the cells from position `k` on are known, those before are not, and the queue has the equation at
the frontier and none after it. -/
structure LinkInv (gs : List (F × F → F × F)) (c : F × F) (k : Nat) (s : St ICell Bool) : Prop where
  le : k ≤ gs.length
  known : ∀ i, k ≤ i → i ≤ gs.length → s.env i = some (pullAll (gs.drop i) c)
  unknown : ∀ i < k, s.env i = none
  queued : 0 < k → k - 1 ∈ s.queue
  below : ∀ e ∈ s.queue, e < k
  nodup : s.queue.Nodup

theorem link_step (rs : List Rule) (gs : List (F × F → F × F)) (hl : rs.length = gs.length)
    (h : ∀ (e : Nat) r g, rs[e]? = some r → gs[e]? = some g → Link r g) (c : F × F) (k : Nat) (s t : St ICell Bool)
    (hi : LinkInv gs c k s) (hst : Step iOps (linkChain rs) s t) : ∃ k', LinkInv gs c k' t := by
  cases hst with
  | mk e rest q q' hq he hp =>
    rw [link_eqn] at he
    rcases hre : rs[e]? with _ | r
    · rw [hre] at he; simp at he
    rw [hre] at he
    simp only [Option.map_some, Option.some.injEq] at he
    subst he
    have hel := (List.getElem?_eq_some_iff.1 hre).1
    have heg : e < gs.length := by omega
    have hge : gs[e]? = some gs[e] := List.getElem?_eq_getElem heg
    have hL := h e r gs[e] hre hge
    have hek : e < k := hi.below e (by rw [hq]; simp)
    have hnd : e ∉ rest ∧ rest.Nodup := by have := hi.nodup; rw [hq] at this; exact List.nodup_cons.1 this
    have hnd' : q'.Nodup := hp.nodup hnd.2
    have h0 := hi.unknown e hek
    by_cases hlt : e + 1 < k
    · -- both unknown
      have h1 := hi.unknown (e + 1) hlt
      have henv : (exec iOps s.env ⟨[Atom.var e], [Atom.var (e + 1)], r⟩).1 = s.env := by
        simp only [exec, List.map_cons, List.map_nil, Propagate.read, h0, h1, hL.nn.1, hL.nn.2, writeAll, write, iOps]
        funext z
        by_cases z1 : z = e
        · subst z1; simp [h0]
        · by_cases z2 : z = e + 1
          · subst z2; simp [h1]
          · simp [z1, z2]
      have hpr : progressed iOps ([Atom.var e] ++ [Atom.var (e + 1)])
          ([Atom.var e].map (Propagate.read iOps s.env) ++ [Atom.var (e + 1)].map (Propagate.read iOps s.env))
          ((exec iOps s.env ⟨[Atom.var e], [Atom.var (e + 1)], r⟩).2.1 ++
            (exec iOps s.env ⟨[Atom.var e], [Atom.var (e + 1)], r⟩).2.2.1) = [] := by
        simp only [exec, List.map_cons, List.map_nil, Propagate.read, h0, h1, hL.nn.1, hL.nn.2, writeAll, write, iOps]
        simp [progressed]
      rw [hpr] at hp
      cases hp
      refine ⟨k, hi.le, ?_, ?_, ?_, ?_, hnd.2⟩
      · intro i; simp only [henv]; exact hi.known i
      · intro i; simp only [henv]; exact hi.unknown i
      · intro hk
        have := hi.queued hk
        rw [hq] at this
        rcases List.mem_cons.1 this with h' | h'
        · omega
        · exact h'
      · intro e' he'; exact hi.below e' (by rw [hq]; exact List.mem_cons_of_mem _ he')
    · -- the frontier
      have hk : k = e + 1 := by omega
      subst hk
      have h1 := hi.known (e + 1) (by omega) (by omega)
      have hpull : pullAll (gs.drop e) c = gs[e] (pullAll (gs.drop (e + 1)) c) := by
        rw [List.drop_eq_getElem_cons heg]; rfl
      generalize hd : pullAll (gs.drop (e + 1)) c = d at hpull h1
      have henv : ∀ z, (exec iOps s.env ⟨[Atom.var e], [Atom.var (e + 1)], r⟩).1 z =
          if z = e then some (gs[e] d) else s.env z := by
        intro z
        simp only [exec, List.map_cons, List.map_nil, Propagate.read, h0, h1, (hL.ns d).1, (hL.ns d).2, writeAll, write, iOps]
        by_cases z1 : z = e
        · subst z1; simp
        · by_cases z2 : z = e + 1
          · subst z2; simp [h1]
          · simp [z1, z2]
      have hpr : progressed iOps ([Atom.var e] ++ [Atom.var (e + 1)])
          ([Atom.var e].map (Propagate.read iOps s.env) ++ [Atom.var (e + 1)].map (Propagate.read iOps s.env))
          ((exec iOps s.env ⟨[Atom.var e], [Atom.var (e + 1)], r⟩).2.1 ++
            (exec iOps s.env ⟨[Atom.var e], [Atom.var (e + 1)], r⟩).2.2.1) = [e] := by
        simp only [exec, List.map_cons, List.map_nil, Propagate.read, h0, h1, (hL.ns d).1, (hL.ns d).2, writeAll, write, iOps]
        simp [progressed, Atom.node]
      rw [hpr] at hp
      refine ⟨e, by omega, ?_, ?_, ?_, ?_, hnd'⟩
      · intro i hi1 hi2
        simp only [henv]
        by_cases a1 : i = e
        · subst a1; simp [hpull]
        · rw [if_neg a1]; exact hi.known i (by omega) hi2
      · intro i hi1
        simp only [henv]
        rw [if_neg (by omega)]
        exact hi.unknown i (by omega)
      · intro he0
        refine (hp.mem (e - 1)).2 (.inr ⟨by omega, e, by simp, ?_⟩)
        rw [link_nbr]; omega
      · intro e' he'
        rcases (hp.mem e').1 he' with h' | ⟨h', x, hx, hn⟩
        · have := hi.below e' (by rw [hq]; exact List.mem_cons_of_mem _ h')
          have : e' ≠ e := by rintro rfl; exact hnd.1 h'
          omega
        · simp only [List.mem_singleton] at hx
          subst hx
          rw [link_nbr] at hn
          omega

theorem link_initEnv (rs : List Rule) (b : ICell) (i : Nat) :
    initEnv iOps (linkChain rs) [] [none] [b] i = if i = rs.length then b else none := by
  have hw : ∀ (as : List (Atom F)) (env : Env ICell) (cs : List ICell),
      (∀ (j x : Nat) (c : ICell), as[j]? = some (Atom.var x) → cs[j]? = some c → c = none) →
      (writeAll iOps env as cs).1 = env := by
    intro as
    induction as with
    | nil => intro env cs _; cases cs <;> rfl
    | cons a as ih =>
      intro env cs hall
      obtain _ | ⟨c, cs⟩ := cs
      · rfl
      · simp only [writeAll]
        rw [ih]
        · cases a with
          | lit v => rfl
          | drop x => rfl
          | var x =>
            have := hall 0 x c (by simp) (by simp)
            subst this
            funext z
            simp only [write, iOps]
            by_cases hz : z = x
            · subst hz; simp
            · simp [hz]
        · intro j x c h1 h2
          exact hall (j + 1) x c (by simpa using h1) (by simpa using h2)
  unfold initEnv
  rw [hw]
  · simp only [linkChain, writeAll, write, iOps]
    by_cases hi : i = rs.length
    · subst hi; cases b <;> simp
    · by_cases hi0 : i = 0
      · subst hi0; simp [hi]
      · simp [hi, hi0]
  · intro j x c h1 h2
    rw [List.getElem?_map, h1] at h2
    simp only [Option.map_some, Option.some.injEq] at h2
    rw [← h2]; rfl

/-- Every complete run from the output. -/
theorem link_run (rs : List Rule) (gs : List (F × F → F × F)) (hl : rs.length = gs.length)
    (h : ∀ (e : Nat) r g, rs[e]? = some r → gs[e]? = some g → Link r g) (c : F × F) (s : St ICell Bool)
    (hc : Completes (linkChain rs) [none] [some c] s) :
    s.env 0 = some (pullAll gs c) ∧ s.env rs.length = some c := by
  obtain ⟨s0, h0, hs, hq⟩ := hc
  have key : ∃ k, LinkInv gs c k s := by
    clear hq
    induction hs with
    | refl =>
      obtain ⟨henv, hq, -⟩ := h0
      refine ⟨gs.length, Nat.le_refl _, ?_, ?_, ?_, ?_, hq.1⟩
      · intro i h1 h2
        rw [henv, link_initEnv, if_pos (by omega)]
        have : i = gs.length := by omega
        subst this
        simp [pullAll]
      · intro i hi
        rw [henv, link_initEnv, if_neg (by omega)]
      · intro hk
        rw [hq.2]
        refine ⟨rs.length, ?_, ?_⟩
        · simp [linkChain, Atom.node]
        · rw [link_nbr]; omega
      · intro e he
        rw [hq.2] at he
        obtain ⟨x, -, hn⟩ := he
        rw [link_nbr] at hn
        omega
    | tail t u _ hst ih =>
      obtain ⟨k, hk⟩ := ih
      exact link_step rs gs hl h c k t u hk hst
  obtain ⟨k, hk⟩ := key
  have hk0 : k = 0 := by
    by_contra hne
    have := hk.queued (by omega)
    rw [hq] at this; simp at this
  subst hk0
  refine ⟨by simpa using hk.known 0 (Nat.le_refl _) (Nat.zero_le _), ?_⟩
  have := hk.known gs.length (Nat.zero_le _) (Nat.le_refl _)
  rw [hl]
  simpa [pullAll] using this

/-- Every complete run without information. -/
theorem link_none (rs : List Rule) (h : ∀ r ∈ rs, (r [none] [none]).1 = [none] ∧ (r [none] [none]).2.1 = [none])
    (s : St ICell Bool) (hc : Completes (linkChain rs) [none] [none] s) : ∀ x, s.env x = none := by
  obtain ⟨s0, h0, hs, hq⟩ := hc
  clear hq
  induction hs with
  | refl => intro x; rw [h0.1, link_initEnv]; simp
  | tail t u _ hst ih =>
    cases hst with
    | mk e rest q q' hq he hp =>
      rw [link_eqn] at he
      rcases hre : rs[e]? with _ | r
      · rw [hre] at he; simp at he
      rw [hre] at he
      simp only [Option.map_some, Option.some.injEq] at he
      subst he
      have hn := h r (List.mem_of_getElem? hre)
      intro x
      simp only [exec, List.map_cons, List.map_nil, Propagate.read, ih, hn.1, hn.2, writeAll, write, iOps]
      simp [ih]

/-- The rules of the pieces of a composition. -/
noncomputable def rulesOf (σ : Order) : List Piece → List Rule
  | [] => []
  | .prim p :: ps => unRule p :: rulesOf σ ps
  | .call id body :: ps => σ id ⟨[], [.var 0], [.var body.length], eqnsOf σ (toEqns body 0)⟩ :: rulesOf σ ps

/-- Pulling back through one primitive. -/
noncomputable def pull1 (p : Un) (c : F × F) : F × F := (c.1.bind p.g, p.ld c.2 c.1)

/-- Pulling back through the primitives of a composition, piece by piece. -/
noncomputable def gsOf : List Piece → List (F × F → F × F)
  | [] => []
  | .prim p :: ps => pull1 p :: gsOf ps
  | .call _ body :: ps => (fun c => (flat body).foldr pull1 c) :: gsOf ps

theorem toEqns_eqns (σ : Order) : ∀ (ps : List Piece) (k : Nat), eqnsOf σ (toEqns ps k) =
    (rulesOf σ ps).mapIdx (fun i r => ⟨[.var (i + k)], [.var (i + k + 1)], r⟩)
  | [], k => by simp [toEqns, eqnsOf, rulesOf]
  | .prim p :: ps, k => by
    simp only [toEqns, eqnsOf, rulesOf, List.mapIdx_cons, toEqns_eqns σ ps (k + 1), Op.rule]
    simp [Nat.add_assoc, Nat.add_comm 1 k]
  | .call id body :: ps, k => by
    simp only [toEqns, eqnsOf, rulesOf, List.mapIdx_cons, toEqns_eqns σ ps (k + 1)]
    simp [Nat.add_assoc, Nat.add_comm 1 k]

theorem rulesOf_length (σ : Order) : ∀ ps : List Piece, (rulesOf σ ps).length = ps.length
  | [] => rfl
  | .prim p :: ps => by simp [rulesOf, rulesOf_length σ ps]
  | .call id body :: ps => by simp [rulesOf, rulesOf_length σ ps]

theorem gsOf_length : ∀ ps : List Piece, (gsOf ps).length = ps.length
  | [] => rfl
  | .prim p :: ps => by simp [gsOf, gsOf_length ps]
  | .call id body :: ps => by simp [gsOf, gsOf_length ps]

theorem body_chain (σ : Order) (ps : List Piece) :
    (⟨[], [.var 0], [.var ps.length], eqnsOf σ (toEqns ps 0)⟩ : Jaxpr ICell F Bool) = linkChain (rulesOf σ ps) := by
  rw [toEqns_eqns]
  simp [linkChain, linkEqns, rulesOf_length]

theorem wrap_wf : ∀ (ps : List Piece) (k : Nat), wfAll (toEqns ps k)
  | [], _ => by simp [toEqns, wfAll]
  | .prim p :: ps, k => by
    simp only [toEqns, wfAll]
    exact ⟨⟨rfl, rfl⟩, wrap_wf ps (k + 1)⟩
  | .call id body :: ps, k => by
    simp only [toEqns, wfAll]
    exact ⟨rfl, rfl, wrap_wf body 0, wrap_wf ps (k + 1)⟩

theorem pullAll_gsOf : ∀ (ps : List Piece) (c : F × F), pullAll (gsOf ps) c = (flat ps).foldr pull1 c
  | [], c => by simp [gsOf, pullAll, flat]
  | .prim p :: ps, c => by
    have := pullAll_gsOf ps c
    simp only [pullAll] at this
    simp only [gsOf, pullAll, List.foldr_cons, flat, this]
  | .call id body :: ps, c => by
    have := pullAll_gsOf ps c
    simp only [pullAll] at this
    simp only [gsOf, pullAll, List.foldr_cons, flat, this, List.foldr_append]

theorem un_link (p : Un) : Link (unRule p) (pull1 p) := ⟨⟨rfl, rfl⟩, fun _ => ⟨rfl, rfl⟩⟩

theorem links_all (σ : Order) (hσ : σ.Valid) : ∀ (ps : List Piece) (e : Nat) r g, (rulesOf σ ps)[e]? = some r →
    (gsOf ps)[e]? = some g → Link r g
  | [], e, r, g, h1, _ => by simp [rulesOf] at h1
  | .prim p :: ps, e, r, g, h1, h2 => by
    cases e with
    | zero =>
      simp only [rulesOf, gsOf, List.getElem?_cons_zero, Option.some.injEq] at h1 h2
      subst h1 h2; exact un_link p
    | succ e => exact links_all σ hσ ps e r g (by simpa [rulesOf] using h1) (by simpa [gsOf] using h2)
  | .call id body :: ps, e, r, g, h1, h2 => by
    cases e with
    | succ e => exact links_all σ hσ ps e r g (by simpa [rulesOf] using h1) (by simpa [gsOf] using h2)
    | zero =>
      simp only [rulesOf, gsOf, List.getElem?_cons_zero, Option.some.injEq] at h1 h2
      subst h1 h2
      have hb := links_all σ hσ body
      have hlen : (rulesOf σ body).length = (gsOf body).length := by rw [rulesOf_length, gsOf_length]
      have hz : Sized (linkChain (rulesOf σ body)) := by
        rw [← body_chain]; exact sized_all σ hσ _ (wrap_wf body 0)
      rw [body_chain]
      constructor
      · obtain ⟨s, hs, heq⟩ := hσ id (linkChain (rulesOf σ body)) [none] [none] hz rfl rfl
        have := link_none (rulesOf σ body) (fun r hr => by
          obtain ⟨e, he⟩ := List.mem_iff_getElem?.1 hr
          have hlt := (List.getElem?_eq_some_iff.1 he).1
          exact (hb e r _ he (List.getElem?_eq_getElem (by omega))).nn) s hs
        rw [heq]
        simp [linkChain, Propagate.read, this]
      · intro c
        obtain ⟨s, hs, heq⟩ := hσ id (linkChain (rulesOf σ body)) [none] [some c] hz rfl rfl
        obtain ⟨r1, r2⟩ := link_run _ _ hlen hb c s hs
        rw [heq]
        simp [linkChain, Propagate.read, r1, r2, pullAll_gsOf]

/-- **C71, compositions of functions of one variable.**  Wrapping parts of a composition of registered primitives in
calls, to any depth, does not change what `inverse` and `ildj` return, in any order of propagation. -/
theorem C71_chain_partial (σ : Order) (hσ : σ.Valid) (ps : List Piece) (y : F) (res : Option (List (F × F))) :
    InverseRun σ (wrap ps) [y] res ↔ Verif.Inverse.InverseRun (chainProg (flat ps)) [y] res := by
  rw [chain_run]
  have hj : (wrap ps).jaxpr σ = linkChain (rulesOf σ ps) := body_chain σ ps
  have hlen : (rulesOf σ ps).length = (gsOf ps).length := by rw [rulesOf_length, gsOf_length]
  have hres : ∀ s, Completes ((wrap ps).jaxpr σ) ((wrap ps).invars.map (fun _ => none)) [some (y, some 0)] s →
      ((wrap ps).invars.map (Propagate.read iOps s.env)).mapM id = some [pull (flat ps) y] := by
    intro s hs
    rw [hj] at hs
    obtain ⟨r1, -⟩ := link_run _ _ hlen (links_all σ hσ ps) (y, some 0) s hs
    rw [pullAll_gsOf] at r1
    simp only [wrap, List.map_cons, List.map_nil, Propagate.read, r1]
    rfl
  constructor
  · rintro ⟨s, hs, rfl⟩
    exact hres s hs
  · rintro rfl
    obtain ⟨s, hs⟩ := completes_exists ((wrap ps).jaxpr σ) (sized_all σ hσ _ (wrap_wf ps 0))
      ((wrap ps).invars.map (fun _ => none)) [some (y, some 0)]
    exact ⟨s, hs, (hres s hs).symm⟩

/-- A chain with a call in a call: `exp`, then a call of (`neg`, then a call of `log1p`). -/
example : ∃ σ : Order, σ.Valid ∧ ∀ y res,
    InverseRun σ (wrap [.prim .exp, .call 0 [.prim .neg, .call 1 [.prim .log1p]]]) [y] res ↔
      Verif.Inverse.InverseRun (chainProg [.exp, .neg, .log1p]) [y] res := by
  obtain ⟨σ, hσ⟩ := order_exists
  refine ⟨σ, hσ, fun y res => ?_⟩
  have h := C71_chain_partial σ hσ [.prim .exp, .call 0 [.prim .neg, .call 1 [.prim .log1p]]] y res
  simpa [flat] using h

end Verif.Inverse.Nested
