import Verif.Matching.Jax

/-
C34: turning a jaxpr into expressions and evaluating them is running the jaxpr; rules that
preserve evaluation preserve the function.
-/

namespace Verif.JaxRewrite

variable {V P : Type} {multi : P → Bool} {sem : P → List V → Option (List V)}

mutual
/-- The closed jaxprs of all inner `pjit`/call equations have no constants, and a primitive with a single
result has one output variable. -/
def Supported (multi : P → Bool) : Jaxpr V P → Prop
  | .mk _ _ eqns _ => SupportedEqns multi eqns
/-- As `Supported`. -/
def SupportedEqns (multi : P → Bool) : List (JEqn V P) → Prop
  | [] => True
  | eqn :: eqns => SupportedEqn multi eqn ∧ SupportedEqns multi eqns
/-- As `Supported`. -/
def SupportedEqn (multi : P → Bool) : JEqn V P → Prop
  | .prim p _ outs => multi p = true ∨ outs.length = 1
  | .call _ body _ _ => (match body with | .mk cs _ _ _ => cs = []) ∧ Supported multi body
end

/-- The expression environment computes the value environment, from the input environment. -/
def Computes (multi : P → Bool) (sem : P → List V → Option (List V)) (env0 : Env V) (ee : EEnv V P)
    (env : Env V) : Prop :=
  ∀ n v, env n = some v → ∃ e, ee n = some e ∧ evaluate multi sem e env0 = some (.one v)

theorem Computes.read {env0 : Env V} {ee : EEnv V P} {env : Env V} (h : Computes multi sem env0 ee env) :
    ∀ (as : List (JAtom V)) (vs : List V), readAtoms env as = some vs →
      ∃ es, readEs ee as = some es ∧ evaluateL multi sem es env0 = some vs
  | [], vs, hr => by
    simp only [readAtoms, Option.some.injEq] at hr
    subst hr
    exact ⟨[], rfl, by simp only [evaluateL]⟩
  | a :: as, vs, hr => by
    simp only [readAtoms] at hr
    rcases ha : readAtom env a with _ | v
    · rw [ha] at hr; cases hr
    · rw [ha] at hr
      simp only [Option.bind_some] at hr
      rcases has : readAtoms env as with _ | ws
      · rw [has] at hr; cases hr
      · rw [has] at hr
        simp only [Option.bind_some, Option.some.injEq] at hr
        subst hr
        obtain ⟨es, h1, h2⟩ := h.read as ws has
        have : ∃ e, readE ee a = some e ∧ evaluate multi sem e env0 = some (.one v) := by
          rcases a with n | w
          · exact h n v ha
          · simp only [readAtom, Option.some.injEq] at ha
            subst ha
            exact ⟨.lit w, rfl, by simp only [evaluate]⟩
        obtain ⟨e, h3, h4⟩ := this
        exact ⟨e :: es, by simp only [readEs, h3, h1, Option.bind_some],
          by simp only [evaluateL, h4, h2, Option.bind_some]⟩

theorem Computes.writeAll {env0 : Env V} :
    ∀ (ns : List Nat) (es : List (JExpr V P)) (vs : List V) (ee : EEnv V P) (env : Env V),
      Computes multi sem env0 ee env → es.length = ns.length → vs.length = ns.length →
      (∀ i, (hi : i < es.length) → ∀ v, vs[i]? = some v → evaluate multi sem es[i] env0 = some (.one v)) →
      Computes multi sem env0 (writeAll ns es ee) (bindAll ns vs env)
  | [], es, vs, ee, env, h, _, _, _ => by
    rcases es with _ | ⟨e, es⟩ <;> rcases vs with _ | ⟨v, vs⟩ <;> exact h
  | n :: ns, [], vs, ee, env, h, hl, _, _ => by simp at hl
  | n :: ns, e :: es, [], ee, env, h, _, hl, _ => by simp at hl
  | n :: ns, e :: es, v :: vs, ee, env, h, hl, hl', hev => by
    simp only [JaxRewrite.writeAll, bindAll]
    refine Computes.writeAll ns es vs _ _ ?_ (by simpa using hl) (by simpa using hl') ?_
    · intro m w hm
      by_cases hmn : m = n
      · subst hmn
        simp only [if_true, Option.some.injEq] at hm
        subst hm
        exact ⟨e, by simp, hev 0 (by simp) v (by simp)⟩
      · simp only [if_neg hmn] at hm ⊢
        exact h m w hm
    · intro i hi w hw
      have := hev (i + 1) (by simpa using hi) w (by simpa using hw)
      simpa using this

/-- The outputs of an equation with several results. -/
theorem Computes.outMulti {env0 : Env V} {ee : EEnv V P} {env : Env V} (h : Computes multi sem env0 ee env)
    (out : JExpr V P) (outs : List Nat) (rs : List V) (hlen : outs.length = rs.length)
    (hev : evaluate multi sem out env0 = some (.tuple rs)) :
    ∃ ee', writeOut true out outs ee = some ee' ∧ Computes multi sem env0 ee' (bindAll outs rs env) := by
  refine ⟨_, by simp only [writeOut, if_true]; rfl, ?_⟩
  refine h.writeAll outs _ rs ee env (by simp) hlen.symm ?_
  intro i hi v hv
  simp only [List.getElem_map, List.getElem_range, evaluate, hev, Option.bind_some, hv]

/-- The output of an equation with one result. -/
theorem Computes.outOne {env0 : Env V} {ee : EEnv V P} {env : Env V} (h : Computes multi sem env0 ee env)
    (out : JExpr V P) (o : Nat) (r : V) (hev : evaluate multi sem out env0 = some (.one r)) :
    ∃ ee', writeOut false out [o] ee = some ee' ∧ Computes multi sem env0 ee' (bindAll [o] [r] env) := by
  refine ⟨_, by simp only [writeOut, Bool.false_eq_true, if_false]; rfl, ?_⟩
  refine h.writeAll [o] [out] [r] ee env rfl rfl ?_
  intro i hi v hv
  have hi0 : i = 0 := by simpa using hi
  subst hi0
  simp only [List.getElem?_cons_zero, Option.some.injEq] at hv
  subst hv
  simpa using hev

/-- The input environment. -/
def inputEnv (constvars invars : List Nat) (consts args : List V) : Env V :=
  bindAll invars args (bindAll constvars consts (fun _ => none))

theorem writeAll_vars : ∀ (ns : List Nat) (ee : EEnv V P) (vs : List V) (env : Env V),
    vs.length = ns.length →
    (∀ n v, env n = some v → ee n = some (.var n)) →
    ∀ n v, bindAll ns vs env n = some v → writeAll ns (ns.map .var) ee n = some (.var n)
  | [], ee, vs, env, _, h => by
    intro n v hn
    rcases vs with _ | ⟨w, vs⟩ <;> exact h n v hn
  | m :: ns, ee, [], env, hl, h => by simp at hl
  | m :: ns, ee, w :: vs, env, hl, h => by
    simp only [bindAll, List.map_cons, writeAll]
    refine writeAll_vars ns _ vs _ (by simpa using hl) ?_
    intro n v hn
    by_cases hnm : n = m
    · subst hnm; simp
    · rw [if_neg hnm] at hn ⊢; exact h n v hn

theorem computes_input (constvars invars : List Nat) (consts args : List V)
    (h1 : constvars.length = consts.length) (h2 : invars.length = args.length) :
    Computes multi sem (inputEnv constvars invars consts args)
      (writeAll invars (invars.map .var) (writeAll constvars (constvars.map .var) (fun _ => none)))
      (inputEnv constvars invars consts args) := by
  intro n v hn
  refine ⟨.var n, ?_, by simp only [evaluate, hn, Option.bind_some]⟩
  exact writeAll_vars (V := V) (P := P) invars _ args _ h2.symm
    (writeAll_vars constvars _ consts _ h1.symm (fun n v h => by cases h)) n v hn

theorem withConsts_nil (env : Env V) : withConsts [] env = env := by
  funext n
  unfold withConsts
  rcases env n with _ | v <;> rfl

mutual
/-- Evaluating the expressions of a jaxpr in the environment of its inputs. -/
theorem toExprs_eval : ∀ (constvars invars : List Nat) (eqns : List (JEqn V P)) (outs : List (JAtom V)),
    SupportedEqns multi eqns → ∀ (consts args vs : List V),
    evalJaxpr sem (.mk constvars invars eqns outs) consts args = some vs →
    ∃ es, toExprs multi (.mk constvars invars eqns outs) = some es ∧
      evaluateL multi sem es (inputEnv constvars invars consts args) = some vs
  | constvars, invars, eqns, outs => by
    intro hsup consts args vs h
    simp only [evalJaxpr] at h
    split at h
    · rename_i hlen
      rcases he : evalEqns sem eqns (bindAll invars args (bindAll constvars consts (fun _ => none))) with
        _ | env
      · rw [he] at h; cases h
      · rw [he] at h
        simp only [Option.bind_some] at h
        obtain ⟨ee', h1, h2⟩ := toExprsEqns_eval eqns hsup _ _ _ _
          (computes_input constvars invars consts args hlen.1 hlen.2) he
        obtain ⟨es, h3, h4⟩ := h2.read outs vs h
        exact ⟨es, by simp only [toExprs, h1, Option.bind_some]; exact h3, h4⟩
    · cases h
theorem toExprsEqns_eval : ∀ (eqns : List (JEqn V P)), SupportedEqns multi eqns →
    ∀ (env0 : Env V) (ee : EEnv V P) (env env' : Env V), Computes multi sem env0 ee env →
    evalEqns sem eqns env = some env' →
    ∃ ee', toExprsEqns multi eqns ee = some ee' ∧ Computes multi sem env0 ee' env'
  | [], _ => by
    intro env0 ee env env' h he
    simp only [evalEqns, Option.some.injEq] at he
    subst he
    exact ⟨ee, by simp only [toExprsEqns], h⟩
  | eqn :: eqns, hsup => by
    intro env0 ee env env' h he
    simp only [SupportedEqns] at hsup
    simp only [evalEqns] at he
    rcases h1 : evalEqn sem eqn env with _ | env1
    · rw [h1] at he; cases he
    · rw [h1] at he
      simp only [Option.bind_some] at he
      obtain ⟨ee1, h2, h3⟩ := toExprsEqn_eval eqn hsup.1 env0 ee env env1 h h1
      obtain ⟨ee2, h4, h5⟩ := toExprsEqns_eval eqns hsup.2 env0 ee1 env1 env' h3 he
      exact ⟨ee2, by simp only [toExprsEqns, h2, Option.bind_some]; exact h4, h5⟩
theorem toExprsEqn_eval : ∀ (eqn : JEqn V P), SupportedEqn multi eqn →
    ∀ (env0 : Env V) (ee : EEnv V P) (env env' : Env V), Computes multi sem env0 ee env →
    evalEqn sem eqn env = some env' →
    ∃ ee', toExprsEqn multi eqn ee = some ee' ∧ Computes multi sem env0 ee' env'
  | .prim p ins outs, hsup => by
    intro env0 ee env env' h he
    simp only [SupportedEqn] at hsup
    simp only [evalEqn] at he
    rcases h1 : readAtoms env ins with _ | args
    · rw [h1] at he; cases he
    · rw [h1] at he
      simp only [Option.bind_some] at he
      rcases h2 : sem p args with _ | rs
      · rw [h2] at he; cases he
      · rw [h2] at he
        simp only [Option.bind_some] at he
        split at he
        · rename_i hlen
          simp only [Option.some.injEq] at he
          subst he
          obtain ⟨ops, h3, h4⟩ := h.read ins args h1
          simp only [toExprsEqn, h3, Option.bind_some]
          rcases hm : multi p with _ | _
          · rw [hm] at hsup
            have hl1 : outs.length = 1 := by simpa using hsup
            rcases outs with _ | ⟨o, _ | ⟨o', outs⟩⟩
            · simp at hl1
            · rcases rs with _ | ⟨r, _ | ⟨r', rs⟩⟩
              · simp at hlen
              · exact h.outOne _ o r (by simp [evaluate, h4, primResult, h2, hm])
              · simp at hlen
            · simp at hl1
          · exact h.outMulti _ outs rs hlen (by simp [evaluate, h4, primResult, h2, hm])
        · cases he
  | .call ins (.mk cs invars eqns bouts) consts outs, hsup => by
    intro env0 ee env env' h he
    simp only [SupportedEqn, Supported] at hsup
    obtain ⟨rfl, hsup⟩ := hsup
    simp only [evalEqn] at he
    rcases h1 : readAtoms env ins with _ | args
    · rw [h1] at he; cases he
    · rw [h1] at he
      simp only [Option.bind_some] at he
      rcases h2 : evalJaxpr sem (.mk [] invars eqns bouts) consts args with _ | rs
      · rw [h2] at he; cases he
      · rw [h2] at he
        simp only [Option.bind_some] at he
        split at he
        · rename_i hlen
          simp only [Option.some.injEq] at he
          subst he
          obtain ⟨ops, h3, h4⟩ := h.read ins args h1
          obtain ⟨es, h5, h6⟩ := toExprs_eval [] invars eqns bouts hsup consts args rs h2
          have hlen2 : invars.length = args.length := by
            simp only [evalJaxpr] at h2
            split at h2
            · rename_i hl; exact hl.2
            · cases h2
          have hc : consts = [] := by
            simp only [evalJaxpr] at h2
            split at h2
            · rename_i hl; exact List.length_eq_zero_iff.mp hl.1.symm
            · cases h2
          subst hc
          simp only [toExprsEqn, h3, h5, Option.bind_some]
          refine h.outMulti _ outs rs hlen ?_
          have h6' : evaluateL multi sem es (bindAll invars args (fun _ => none)) = some rs := h6
          simp [evaluate, h4, bindStrict, hlen2, withConsts_nil, h6']
        · cases he
end

theorem bindAll_get : ∀ (ns : List Nat) (vs : List V) (env : Env V), vs.length = ns.length → ∀ n,
    bindAll ns vs env n = (match bindAll ns vs (fun _ => none) n with | some v => some v | none => env n)
  | [], vs, env, hl => by
    intro n; rcases vs with _ | ⟨v, vs⟩ <;> rfl
  | m :: ns, [], env, hl => by simp at hl
  | m :: ns, v :: vs, env, hl => by
    intro n
    simp only [bindAll]
    rw [bindAll_get ns vs _ (by simpa using hl) n, bindAll_get ns vs (fun k => if k = m then some v else none)
      (by simpa using hl) n]
    rcases bindAll ns vs (fun _ => none) n with _ | w
    · by_cases h : n = m <;> simp [h]
    · rfl

theorem withConsts_input (constvars invars : List Nat) (consts args : List V)
    (h1 : constvars.length = consts.length) (h2 : invars.length = args.length) :
    withConsts (constvars.zip consts) (bindAll invars args (fun _ => none)) =
      inputEnv constvars invars consts args := by
  funext n
  unfold withConsts inputEnv
  rw [bindAll_get invars args (bindAll constvars consts _) h2.symm n, List.map_fst_zip (by omega),
    List.map_snd_zip (by omega)]
  rcases bindAll invars args (fun _ => none) n with _ | v <;> rfl

/-- A rule preserves evaluation if the rewritten expression has the same value in every environment
where the expression has one. -/
def PreservesEval (multi : P → Bool) (sem : P → List V → Option (List V))
    (rule : JExpr V P → Option (JExpr V P)) : Prop :=
  ∀ e e', rule e = some e' → ∀ env r, evaluate multi sem e env = some r → evaluate multi sem e' env = some r

/-- **C34.** The expression made from a jaxpr evaluates to the outputs of the jaxpr. -/
theorem bound_expression_eval_partial (j : Jaxpr V P) (hs : Supported multi j) (consts args vs : List V)
    (h : evalJaxpr sem j consts args = some vs) :
    ∃ e names env, makeBound multi j consts = some (e, names) ∧ bindStrict names args = some env ∧
      evaluate multi sem e env = some (.tuple vs) := by
  obtain ⟨constvars, invars, eqns, outs⟩ := j
  simp only [Supported] at hs
  obtain ⟨es, h1, h2⟩ := toExprs_eval constvars invars eqns outs hs consts args vs h
  have hlen : constvars.length = consts.length ∧ invars.length = args.length := by
    simp only [evalJaxpr] at h
    split at h
    · assumption
    · cases h
  refine ⟨.bound es (constvars.zip consts), invars, bindAll invars args (fun _ => none), ?_, ?_, ?_⟩
  · simp only [makeBound, h1, Option.bind_some]
  · simp only [bindStrict, hlen.2, if_true]
  · simp only [evaluate, withConsts_input _ _ _ _ hlen.1 hlen.2, h2, Option.bind_some]

/-- **C34.** Rewriting with a rule that changes nothing leaves the function unchanged; so does rewriting
with a rule that preserves evaluation and returns. -/
theorem rewrite_preserves_partial (j : Jaxpr V P) (hs : Supported multi j) (consts args vs : List V)
    (h : evalJaxpr sem j consts args = some vs) :
    rewrite multi sem j consts some args = some (.tuple vs) ∧
    ∀ rule : JExpr V P → Option (JExpr V P), PreservesEval multi sem rule →
      rewrite multi sem j consts rule args = some (.tuple vs) ∨
      ∃ e names, makeBound multi j consts = some (e, names) ∧ rule e = none := by
  obtain ⟨e, names, env, h1, h2, h3⟩ := bound_expression_eval_partial j hs consts args vs h
  refine ⟨by simp [rewrite, h1, h2, h3], fun rule hr => ?_⟩
  rcases he : rule e with _ | e'
  · exact .inr ⟨e, names, h1, he⟩
  · exact .inl (by simp [rewrite, h1, h2, he, hr e e' he env _ h3])

/-! ### Rewriting subexpressions -/

mutual
/-- `rules.bottom_up` (rules.py:423-429) on JAX expressions, with their `tree_map` methods
(jax_rewrite.py:308, 368, 496, 554, 604, 667, 717). -/
def bottomUpJ (r : JExpr V P → Option (JExpr V P)) : JExpr V P → Option (JExpr V P)
  | .var n => r (.var n)
  | .lit v => r (.lit v)
  | .prim p ops => (bottomUpJs r ops).bind fun ops' => r (.prim p ops')
  | .part e i => (bottomUpJ r e).bind fun e' => r (.part e' i)
  | .bound es cs => (bottomUpJs r es).bind fun es' => r (.bound es' cs)
  | .call ops body names =>
    (bottomUpJs r ops).bind fun ops' => (bottomUpJ r body).bind fun body' => r (.call ops' body' names)
/-- On tuples of expressions (`tuple(map(fn, ...))`). -/
def bottomUpJs (r : JExpr V P → Option (JExpr V P)) : List (JExpr V P) → Option (List (JExpr V P))
  | [] => some []
  | e :: es => (bottomUpJ r e).bind fun e' => (bottomUpJs r es).bind fun es' => some (e' :: es')
end

mutual
/-- A bottom-up pass with a rule that preserves evaluation preserves evaluation. -/
theorem bottomUpJ_preserves {r : JExpr V P → Option (JExpr V P)} (hr : PreservesEval multi sem r) :
    ∀ (e e' : JExpr V P), bottomUpJ r e = some e' → ∀ env x, evaluate multi sem e env = some x →
      evaluate multi sem e' env = some x
  | .var n, e', h => by simp only [bottomUpJ] at h; exact hr _ _ h
  | .lit v, e', h => by simp only [bottomUpJ] at h; exact hr _ _ h
  | .prim p ops, e', h => by
    intro env x hx
    simp only [bottomUpJ] at h
    rcases ho : bottomUpJs r ops with _ | ops'
    · rw [ho] at h; cases h
    · rw [ho] at h
      refine hr _ _ h env x ?_
      simp only [evaluate] at hx ⊢
      rcases hv : evaluateL multi sem ops env with _ | vs
      · rw [hv] at hx; cases hx
      · rw [bottomUpJs_preserves hr ops ops' ho env vs hv]
        rw [hv] at hx
        exact hx
  | .part e i, e', h => by
    intro env x hx
    simp only [bottomUpJ] at h
    rcases ho : bottomUpJ r e with _ | e1
    · rw [ho] at h; cases h
    · rw [ho] at h
      refine hr _ _ h env x ?_
      simp only [evaluate] at hx ⊢
      rcases hv : evaluate multi sem e env with _ | w
      · rw [hv] at hx; cases hx
      · rw [bottomUpJ_preserves hr e e1 ho env w hv]
        rw [hv] at hx
        exact hx
  | .bound es cs, e', h => by
    intro env x hx
    simp only [bottomUpJ] at h
    rcases ho : bottomUpJs r es with _ | es'
    · rw [ho] at h; cases h
    · rw [ho] at h
      refine hr _ _ h env x ?_
      simp only [evaluate] at hx ⊢
      rcases hv : evaluateL multi sem es (withConsts cs env) with _ | vs
      · rw [hv] at hx; cases hx
      · rw [bottomUpJs_preserves hr es es' ho _ vs hv]
        rw [hv] at hx
        exact hx
  | .call ops body names, e', h => by
    intro env x hx
    simp only [bottomUpJ] at h
    rcases ho : bottomUpJs r ops with _ | ops'
    · rw [ho] at h; cases h
    · rw [ho] at h
      simp only [Option.bind_some] at h
      rcases hb : bottomUpJ r body with _ | body'
      · rw [hb] at h; cases h
      · rw [hb] at h
        refine hr _ _ h env x ?_
        simp only [evaluate] at hx ⊢
        rcases hv : evaluateL multi sem ops env with _ | vs
        · rw [hv] at hx; cases hx
        · rw [bottomUpJs_preserves hr ops ops' ho env vs hv]
          rw [hv] at hx
          simp only [Option.bind_some] at hx ⊢
          rcases hn : bindStrict names vs with _ | sub
          · rw [hn] at hx; cases hx
          · rw [hn] at hx
            exact bottomUpJ_preserves hr body body' hb sub x hx
theorem bottomUpJs_preserves {r : JExpr V P → Option (JExpr V P)} (hr : PreservesEval multi sem r) :
    ∀ (l l' : List (JExpr V P)), bottomUpJs r l = some l' → ∀ env vs, evaluateL multi sem l env = some vs →
      evaluateL multi sem l' env = some vs
  | [], l', h => by
    intro env vs hv
    simp only [bottomUpJs, Option.some.injEq] at h
    subst h; exact hv
  | e :: es, l', h => by
    intro env vs hv
    simp only [bottomUpJs] at h
    rcases ho : bottomUpJ r e with _ | e'
    · rw [ho] at h; cases h
    · rw [ho] at h
      simp only [Option.bind_some] at h
      rcases hs : bottomUpJs r es with _ | es'
      · rw [hs] at h; cases h
      · rw [hs] at h
        simp only [Option.bind_some, Option.some.injEq] at h
        subst h
        simp only [evaluateL] at hv ⊢
        rcases h1 : evaluate multi sem e env with _ | w
        · rw [h1] at hv; cases hv
        · rw [bottomUpJ_preserves hr e e' ho env w h1]
          rw [h1] at hv
          simp only [Option.bind_some] at hv ⊢
          rcases w with v | l
          · simp only at hv ⊢
            rcases h2 : evaluateL multi sem es env with _ | ws
            · rw [h2] at hv; cases hv
            · rw [bottomUpJs_preserves hr es es' hs env ws h2]
              rw [h2] at hv
              exact hv
          · simp at hv
end

mutual
/-- A bottom-up pass with a rule that always returns, returns. -/
theorem bottomUpJ_total {r : JExpr V P → Option (JExpr V P)} (ht : ∀ e, ∃ e', r e = some e') :
    ∀ e : JExpr V P, ∃ e', bottomUpJ r e = some e'
  | .var n => by simp only [bottomUpJ]; exact ht _
  | .lit v => by simp only [bottomUpJ]; exact ht _
  | .prim p ops => by
    obtain ⟨ops', h⟩ := bottomUpJs_total ht ops
    simp only [bottomUpJ, h, Option.bind_some]; exact ht _
  | .part e i => by
    obtain ⟨e', h⟩ := bottomUpJ_total ht e
    simp only [bottomUpJ, h, Option.bind_some]; exact ht _
  | .bound es cs => by
    obtain ⟨ops', h⟩ := bottomUpJs_total ht es
    simp only [bottomUpJ, h, Option.bind_some]; exact ht _
  | .call ops body names => by
    obtain ⟨ops', h⟩ := bottomUpJs_total ht ops
    obtain ⟨e', h'⟩ := bottomUpJ_total ht body
    simp only [bottomUpJ, h, h', Option.bind_some]; exact ht _
theorem bottomUpJs_total {r : JExpr V P → Option (JExpr V P)} (ht : ∀ e, ∃ e', r e = some e') :
    ∀ es : List (JExpr V P), ∃ es', bottomUpJs r es = some es'
  | [] => ⟨[], by simp only [bottomUpJs]⟩
  | e :: es => by
    obtain ⟨e', h⟩ := bottomUpJ_total ht e
    obtain ⟨es', h'⟩ := bottomUpJs_total ht es
    exact ⟨e' :: es', by simp only [bottomUpJs, h, h', Option.bind_some]⟩
end

/-- **C34 with rules.** Rewriting a function bottom-up by a rule that always returns and preserves
evaluation does not change the function. -/
theorem rewrite_bottom_up_partial (j : Jaxpr V P) (hs : Supported multi j) (consts args vs : List V)
    (h : evalJaxpr sem j consts args = some vs) (r : JExpr V P → Option (JExpr V P))
    (hr : PreservesEval multi sem r) (ht : ∀ e, ∃ e', r e = some e') :
    rewrite multi sem j consts (bottomUpJ r) args = some (.tuple vs) := by
  rcases (rewrite_preserves_partial j hs consts args vs h).2 (bottomUpJ r) (bottomUpJ_preserves hr) with
    h' | ⟨e, names, _, h'⟩
  · exact h'
  · obtain ⟨e', he⟩ := bottomUpJ_total ht e
    rw [he] at h'; cases h'

/-! ### Concrete cases and what is missing -/

/-- Primitives of the examples: addition, and "sum and product" with two results. -/
inductive ExP where
  | add
  | addMul

/-- Their meaning. -/
def exSem : ExP → List Nat → Option (List Nat)
  | .add, [a, b] => some [a + b]
  | .addMul, [a, b] => some [a + b, a * b]
  | _, _ => none

/-- `multiple_results`. -/
def exMulti : ExP → Bool
  | .add => false
  | .addMul => true

/-- `λ c; a. b, d = addMul a c; e = jit(λ x. add x 1) d; out (add b e)`. -/
def exJaxpr : Jaxpr Nat ExP :=
  .mk [0] [1] [.prim .addMul [.var 1, .var 0] [2, 3],
    .call [.var 3] (.mk [] [1] [.prim .add [.var 1, .lit 1] [2]] [.var 2]) [] [4],
    .prim .add [.var 2, .var 4] [5]] [.var 5, .lit 7]

example : Supported exMulti exJaxpr ∧ evalJaxpr exSem exJaxpr [10] [3] = some [44, 7] := by
  refine ⟨?_, by rfl⟩
  simp [exJaxpr, Supported, SupportedEqns, SupportedEqn, exMulti]

example : rewrite exMulti exSem exJaxpr [10] some [3] = some (.tuple [44, 7]) := by rfl

/-- A rule: `x + 0` becomes `x`. -/
def addZero : JExpr Nat ExP → Option (JExpr Nat ExP)
  | .prim .add [x, .lit 0] => some x
  | e => some e

example : PreservesEval exMulti exSem addZero ∧ ∀ e, ∃ e', addZero e = some e' := by
  refine ⟨?_, ?_⟩
  · intro e e' h env r he
    unfold addZero at h
    split at h
    · rename_i x
      injection h with h; subst h
      simp only [evaluate, evaluateL] at he
      rcases hx : evaluate exMulti exSem x env with _ | (v | l)
      · rw [hx] at he; cases he
      · rw [hx] at he
        simpa [primResult, exSem, exMulti] using he
      · rw [hx] at he; cases he
    · injection h with h; subst h; exact he
  · intro e
    unfold addZero
    split <;> exact ⟨_, rfl⟩

/-- **What is missing.** A jitted function that closes over a constant: the closed jaxpr of the `pjit`
has a constant, which is dropped (jax_rewrite.py:800), and evaluating the expression raises
although the function has a value. -/
theorem pjit_constants_lost :
    let j : Jaxpr Nat ExP := .mk [] [1] [.call [.var 1] (.mk [0] [1] [.prim .add [.var 1, .var 0] [2]]
      [.var 2]) [5] [3]] [.var 3]
    evalJaxpr exSem j [] [1] = some [6] ∧ rewrite exMulti exSem j [] some [1] = none := ⟨rfl, rfl⟩

/-- **What is missing.** `rewrite` flattens the positional arguments only (jax_rewrite.py:844), so a call
with keyword arguments fails: there are fewer values than input variables. -/
theorem rewrite_kwargs_fail (j : Jaxpr V P) (consts args kwargs : List V) (hk : kwargs ≠ [])
    (vs : List V) (h : evalJaxpr sem j consts (args ++ kwargs) = some vs)
    (rule : JExpr V P → Option (JExpr V P)) : rewrite multi sem j consts rule args = none := by
  obtain ⟨constvars, invars, eqns, outs⟩ := j
  simp only [evalJaxpr] at h
  split at h
  · rename_i hl
    have hne : invars.length ≠ args.length := by
      have hk' : kwargs.length ≠ 0 := fun h => hk (List.length_eq_zero_iff.mp h)
      have := hl.2
      simp only [List.length_append] at this
      omega
    unfold rewrite
    simp only [makeBound]
    rcases toExprs multi (.mk constvars invars eqns outs) with _ | es
    · rfl
    · simp only [Option.bind_some]
      rcases rule (.bound es (constvars.zip consts)) with _ | e
      · rfl
      · simp [bindStrict, hne]
  · cases h

end Verif.JaxRewrite
