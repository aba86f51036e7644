import Verif.State.Kwargs

/-! C69: keyword arguments of function modules reach the registered primitives, and only those. -/
namespace Verif.State.Kw

variable {P V K : Type}

/-! ### Specification -/

/-- The function as if the keyword arguments had been given at each use of a registered primitive: those recorded there
are overridden.  The bodies of call and map primitives are included, other jaxprs are not. -/
def override (reg : P → Bool) (kwargs : Kwargs K) : Code P V K → Code P V K
  | .done outs => .done outs
  | .prim p recorded ins outs rest =>
    .prim p (if reg p then merge recorded kwargs else recorded) ins outs (override reg kwargs rest)
  | .sub isCall p recorded invars body ins outs rest =>
    .sub isCall p (if reg p then merge recorded kwargs else recorded) invars
      (if isCall then override reg kwargs body else body) ins outs (override reg kwargs rest)

/-- The primitives (with the recorded keyword arguments) of a function that are not inside a jaxpr of a primitive other
than a call or map primitive. -/
inductive Reached : Code P V K → P → Kwargs K → Prop
  | prim {p rec ins outs rest} : Reached (.prim p rec ins outs rest) p rec
  | primRest {p rec ins outs rest q rec'} (h : Reached rest q rec') : Reached (.prim p rec ins outs rest) q rec'
  | sub {c p rec vs body ins outs rest} : Reached (.sub c p rec vs body ins outs rest) p rec
  | body {p rec vs body ins outs rest q rec'} (h : Reached body q rec') :
      Reached (.sub true p rec vs body ins outs rest) q rec'
  | subRest {c p rec vs body ins outs rest q rec'} (h : Reached rest q rec') :
      Reached (.sub c p rec vs body ins outs rest) q rec'

/-- C69 (merging): a keyword that is given has the value given, any other the recorded one. -/
theorem merge_spec (recorded kwargs : Kwargs K) (k : String) :
    (∀ v, kwargs k = some v → merge recorded kwargs k = some v) ∧ (kwargs k = none → merge recorded kwargs k = recorded k) := by
  constructor
  · intro v h; simp [merge, h]
  · intro h; simp [merge, h]

theorem merge_empty (recorded : Kwargs K) : merge recorded (fun _ => none) = recorded := by
  funext k; simp [merge]

/-- What an equation does under keyword arguments. -/
theorem rule_or_bind (bind : P → Sem V K) (rules : P → Option (Sem V K))
    (hr : ∀ p r, rules p = some r → ∀ f kw xs, r f kw xs = bind p f kw xs) (kwargs recorded : Kwargs K) (p : P)
    (f : Option (List V → Option (List V))) (xs : List V) :
    execPrim bind rules kwargs p f recorded xs =
      bind p f (if (rules p).isSome then merge recorded kwargs else recorded) xs := by
  unfold execPrim
  rcases h : rules p with _ | r
  · rfl
  · simp only [Option.isSome_some, if_true]; exact hr p r h _ _ _

/-- C69.  If each registered rule is what the primitive itself does with those keyword arguments, then calling a function
module with keyword arguments is running the function with the keyword arguments given at each use of a registered
primitive, at any depth of calls. -/
theorem kwargs_override (bind : P → Sem V K) (rules : P → Option (Sem V K))
    (hr : ∀ p r, rules p = some r → ∀ f kw xs, r f kw xs = bind p f kw xs) (kwargs : Kwargs K) (code : Code P V K) :
    ∀ env, evalK bind rules kwargs code env = plain bind (override (fun p => (rules p).isSome) kwargs code) env := by
  induction code with
  | done outs => intro env; rfl
  | prim p recorded ins outs rest ih =>
    intro env
    simp only [evalK, override, plain, rule_or_bind bind rules hr, ih]
  | sub c p recorded invars body ins outs rest ihb ih =>
    intro env
    have hf : (fun e => if c = true then evalK bind rules kwargs body e else plain bind body e) =
        plain bind (if c = true then override (fun p => (rules p).isSome) kwargs body else body) := by
      funext e
      cases c
      · rfl
      · simp only [if_true]; exact ihb e
    simp only [evalK, override, plain, rule_or_bind bind rules hr, ih, hf]

/-- C69.  If two dictionaries of keyword arguments make no difference to the rules of the primitives that are reached,
they make no difference to the module. -/
theorem kwargs_congr (bind : P → Sem V K) (rules : P → Option (Sem V K)) (kw kw' : Kwargs K) (code : Code P V K)
    (h : ∀ p rec r, Reached code p rec → rules p = some r →
      ∀ f xs, r f (merge rec kw) xs = r f (merge rec kw') xs) :
    ∀ env, evalK bind rules kw code env = evalK bind rules kw' code env := by
  have hp : ∀ p recorded, (∀ r, rules p = some r → ∀ f xs, r f (merge recorded kw) xs = r f (merge recorded kw') xs) →
      ∀ (f : Option (List V → Option (List V))) xs,
        execPrim bind rules kw p f recorded xs = execPrim bind rules kw' p f recorded xs := by
    intro p recorded hr f xs
    unfold execPrim
    rcases hq : rules p with _ | r
    · rfl
    · exact hr r hq f xs
  induction code with
  | done outs => intro env; rfl
  | prim p recorded ins outs rest ih =>
    intro env
    simp only [evalK, hp p recorded (fun r => h p recorded r .prim), ih (fun q rec r hq => h q rec r (.primRest hq))]
  | sub c p recorded invars body ins outs rest ihb ih =>
    intro env
    have hf : (fun e => if c = true then evalK bind rules kw body e else plain bind body e) =
        (fun e => if c = true then evalK bind rules kw' body e else plain bind body e) := by
      funext e
      cases c
      · rfl
      · simp only [if_true]
        exact ihb (fun q rec r hq => h q rec r (.body hq)) e
    simp only [evalK, hp p recorded (fun r => h p recorded r .sub), hf, ih (fun q rec r hq => h q rec r (.subRest hq))]

/-- C69.  Without keyword arguments the module is the function as it was staged, if the rules do what the primitives do
with the keyword arguments recorded. -/
theorem kwargs_none (bind : P → Sem V K) (rules : P → Option (Sem V K)) (code : Code P V K)
    (h : ∀ p rec r, Reached code p rec → rules p = some r → ∀ f xs, r f rec xs = bind p f rec xs) :
    ∀ env, evalK bind rules (fun _ => none) code env = plain bind code env := by
  have hp : ∀ p recorded, (∀ r, rules p = some r → ∀ f xs, r f recorded xs = bind p f recorded xs) →
      ∀ (f : Option (List V → Option (List V))) xs,
        execPrim bind rules (fun _ => none) p f recorded xs = bind p f recorded xs := by
    intro p recorded hr f xs
    unfold execPrim
    rcases hq : rules p with _ | r
    · rfl
    · simp only [merge_empty]; exact hr r hq f xs
  induction code with
  | done outs => intro env; rfl
  | prim p recorded ins outs rest ih =>
    intro env
    simp only [evalK, plain, hp p recorded (fun r => h p recorded r .prim), ih (fun q rec r hq => h q rec r (.primRest hq))]
  | sub c p recorded invars body ins outs rest ihb ih =>
    intro env
    have hf : (fun e => if c = true then evalK bind rules (fun _ => none) body e else plain bind body e) = plain bind body := by
      funext e
      cases c
      · rfl
      · simp only [if_true]
        exact ihb (fun q rec r hq => h q rec r (.body hq)) e
    simp only [evalK, plain, hp p recorded (fun r => h p recorded r .sub), hf,
      ih (fun q rec r hq => h q rec r (.subRest hq))]

/-- C69.  If no primitive that is reached is registered the keyword arguments are ignored: the module is the function as
it was staged. -/
theorem kwargs_ignored (bind : P → Sem V K) (rules : P → Option (Sem V K)) (kw : Kwargs K) (code : Code P V K)
    (h : ∀ p rec, Reached code p rec → rules p = none) (env : Env V) :
    evalK bind rules kw code env = plain bind code env := by
  rw [← kwargs_none bind rules code (fun p rec r hq hr => by rw [h p rec hq] at hr; simp at hr)]
  exact kwargs_congr bind rules kw _ code (fun p rec r hq hr => by rw [h p rec hq] at hr; simp at hr) env

/-- The primitives of a function that are not inside any jaxpr. -/
inductive Met : Code P V K → P → Prop
  | prim {p rec ins outs rest} : Met (.prim p rec ins outs rest) p
  | primRest {p rec ins outs rest q} (h : Met rest q) : Met (.prim p rec ins outs rest) q
  | sub {c p rec vs body ins outs rest} : Met (.sub c p rec vs body ins outs rest) p
  | subRest {c p rec vs body ins outs rest q} (h : Met rest q) : Met (.sub c p rec vs body ins outs rest) q

theorem rawRules_eq (needs : P → Bool) (rules : P → Option (Sem V K)) (p : P)
    (h : needs p = true → (rules p).isSome) : rawRules needs rules p = rules p := by
  unfold rawRules
  rcases hr : rules p with _ | r
  · rcases hn : needs p with _ | _
    · rfl
    · have := h hn
      rw [hr] at this
      exact absurd this (by simp)
  · rfl

/-- C69.  If every primitive that is reached and takes functions as arguments is registered, the module is evaluated with
the registered rules and, for the other primitives, with what they compute in JAX. -/
theorem module_runs (needs : P → Bool) (bind : P → Sem V K) (rules : P → Option (Sem V K)) (kw : Kwargs K)
    (code : Code P V K) (h : ∀ p rec, Reached code p rec → needs p = true → (rules p).isSome) :
    ∀ env, evalK bind (rawRules needs rules) kw code env = evalK bind rules kw code env := by
  have hp : ∀ p, (needs p = true → (rules p).isSome) → ∀ (f : Option (List V → Option (List V))) recorded xs,
      execPrim bind (rawRules needs rules) kw p f recorded xs = execPrim bind rules kw p f recorded xs := by
    intro p hq f recorded xs
    simp only [execPrim, rawRules_eq needs rules p hq]
  induction code with
  | done outs => intro env; rfl
  | prim p recorded ins outs rest ih =>
    intro env
    simp only [evalK, hp p (h p recorded .prim), ih (fun q rec hq => h q rec (.primRest hq))]
  | sub c p recorded invars body ins outs rest ihb ih =>
    intro env
    have hf : (fun e => if c = true then evalK bind (rawRules needs rules) kw body e else plain bind body e) =
        fun e => if c = true then evalK bind rules kw body e else plain bind body e := by
      funext e
      cases c
      · rfl
      · simp only [if_true]
        exact ihb (fun q rec hq => h q rec (.body hq)) e
    simp only [evalK, hp p (h p recorded .sub), hf, ih (fun q rec hq => h q rec (.subRest hq))]

/-- Finding (C69).  A module made from a function that itself uses a primitive that takes functions as arguments and is
not registered raises whenever it is called, although the function runs: e.g. `state.init(lambda x: jax.nn.relu(x))`.
(A layer that does so is registered and runs.) -/
theorem module_custom_jvp_raises (needs : P → Bool) (bind : P → Sem V K) (rules : P → Option (Sem V K)) (kw : Kwargs K)
    (code : Code P V K) (p : P) (hm : Met code p) (hn : needs p = true) (hr : rules p = none) (env : Env V) :
    evalK bind (rawRules needs rules) kw code env = none := by
  have hp : ∀ (f : Option (List V → Option (List V))) recorded xs,
      execPrim bind (rawRules needs rules) kw p f recorded xs = none := by
    intro f recorded xs
    simp [execPrim, rawRules, hr, hn]
  have hopt : ∀ {α β : Type} (o : Option α) (f : α → Option β), (∀ a, f a = none) → o.bind f = none := by
    intro α β o f hf
    rcases o with _ | a
    · rfl
    · exact hf a
  induction hm generalizing env with
  | prim => 
    simp only [evalK, Option.bind_eq_bind, hp, Option.bind_none]
    exact hopt _ _ (fun _ => rfl)
  | primRest _ ih =>
    simp only [evalK, Option.bind_eq_bind]
    exact hopt _ _ (fun _ => hopt _ _ (fun _ => hopt _ _ (fun _ => ih hn hr _ hp)))
  | sub =>
    simp only [evalK, Option.bind_eq_bind, hp, Option.bind_none]
    exact hopt _ _ (fun _ => rfl)
  | subRest _ ih =>
    simp only [evalK, Option.bind_eq_bind]
    exact hopt _ _ (fun _ => hopt _ _ (fun _ => hopt _ _ (fun _ => ih hn hr _ hp)))

/-- Finding (C69).  What is inside the jaxpr of a primitive that is not a call or map primitive (pjit, scan, cond, while,
...) is out of reach of keyword arguments, also if it is registered. -/
theorem kwargs_not_inside (bind : P → Sem V K) (rules : P → Option (Sem V K)) (kw : Kwargs K) (p : P) (hp : rules p = none)
    (recorded : Kwargs K) (invars : List Nat) (body : Code P V K) (ins : List (Atom V)) (outs : List Nat)
    (ret : List (Atom V)) (env : Env V) :
    evalK bind rules kw (.sub false p recorded invars body ins outs (.done ret)) env =
      plain bind (.sub false p recorded invars body ins outs (.done ret)) env := by
  refine kwargs_ignored bind rules kw _ ?_ env
  intro q rec hq
  cases hq with
  | sub => exact hp
  | subRest h => cases h

/-! ### Layers -/

/-- Specification: what a layer does when it is called with keyword arguments: `_call` and `_update` are each given those
of the keyword arguments that `filter_kwargs` keeps for them. -/
def layerSpec (L : Layer V K) (leaves args : List V) (kw : Kwargs K) : Option (List V) := do
  let out ← L.call leaves args (filterKw L.callSig kw)
  let new ← L.update leaves args (filterKw L.updSig kw)
  pure (out ++ new)

/-- Specification: the keyword arguments in force when a layer was called with `kw1` and the key `rng` in the function and
the module is called with `kw2`: `kw2` overrides `kw1`, except that a key given in the function stays. -/
def inForce (py : Py V K) (kw1 : Kwargs K) (rng : Option V) (kw2 : Kwargs K) : Kwargs K := fun k =>
  if k = "rng" then (rng.or (rngOf py kw2)).map py.key
  else if k = "has_rng" then none
  else (kw2 k).or (kw1 k)

/-- The keyword arguments that `filter_kwargs` keeps: all of them if the method has `**kwargs`, otherwise those that are
the names of positional parameters with a default. -/
theorem filterKw_spec (s : Util.Sig) (hs : s.Valid) (kw : Kwargs K) (k : String) (v : K) :
    filterKw s kw k = some v ↔ kw k = some v ∧ (s.varkw = true ∨ ∃ p ∈ s.positional, p.name = k ∧ p.hasDefault = true) := by
  simp only [filterKw]
  rcases hk : kw k with _ | w
  · simp
  · have := (Util.C45_filter_kwargs_partial s hs [(k, w)]).2 (k, w)
    simp only [List.mem_singleton, true_and] at this
    by_cases he : (Util.filterKwargs s [(k, w)]).isEmpty = true
    · rw [List.isEmpty_iff] at he
      rw [he] at this
      simp only [List.not_mem_nil, false_iff] at this
      simp [he, this]
    · have hm : (k, w) ∈ Util.filterKwargs s [(k, w)] := by
        have hsub := (Util.C45_filter_kwargs_partial s hs [(k, w)]).1
        rcases hx : Util.filterKwargs s [(k, w)] with _ | ⟨a, l⟩
        · rw [hx] at he; simp at he
        · rw [hx] at hsub
          have : a ∈ [(k, w)] := hsub.subset (by simp)
          simp only [List.mem_singleton] at this
          simp [this]
      have h2 := this.1 hm
      simp [he, h2]

theorem given_noRng (py : Py V K) (kw1 : Kwargs K) :
    erase (insert (erase kw1 "rng") "has_rng" (py.ofBool false)) "has_rng" = inForce py kw1 none (fun _ => none) := by
  funext k
  simp only [erase, insert, inForce, rngOf]
  by_cases h1 : k = "has_rng"
  · subst h1; simp
  · by_cases h2 : k = "rng" <;> simp [h1, h2]

/-- C69.  `call_and_update` of a layer gives its methods the keyword arguments of the call. -/
theorem callAndUpdate_spec (py : Py V K) (L : Layer V K) (leaves args : List V) (kw : Kwargs K) :
    callAndUpdate py L leaves args kw = layerSpec L leaves args (inForce py kw none kw) := by
  have hh : hasRng py (boundKwargs py kw) = (rngOf py kw).isSome := by
    simp [hasRng, boundKwargs, insert, py.truthy_ofBool]
  simp only [callAndUpdate, cauImpl, hh, boundArgs]
  rcases hr : rngOf py kw with _ | v
  · simp only [Option.isSome_none, Bool.false_eq_true, if_false, layerSpec]
    have : erase (boundKwargs py kw) "has_rng" = inForce py kw none kw := by
      funext k
      simp only [erase, boundKwargs, insert, inForce]
      by_cases h1 : k = "has_rng"
      · subst h1; simp
      · by_cases h2 : k = "rng"
        · subst h2; simp [hr]
        · simp [h1, h2]
    rw [this]
  · simp only [Option.isSome_some, if_true, layerSpec]
    have : insert (erase (boundKwargs py kw) "has_rng") "rng" (py.key v) = inForce py kw none kw := by
      funext k
      simp only [erase, boundKwargs, insert, inForce]
      by_cases h2 : k = "rng"
      · subst h2; simp [hr]
      · by_cases h1 : k = "has_rng"
        · subst h1; simp
        · simp [h1, h2]
    rw [this]

theorem drop_parts (L : Layer V K) (consts leaves more : List V) (hc : consts.length = L.nconsts) :
    (consts ++ (leaves ++ more)).drop L.nconsts = leaves ++ more := by
  rw [← hc, List.drop_left]

/-- C69.  A layer called with keyword arguments `kw1` (and a key or not) inside a function: when the module is called with
`kw2`, its methods get both, `kw2` overriding `kw1`, except that a random key recorded in the function is not replaced. -/
theorem layer_in_module (py : Py V K) (L : Layer V K) (f : Option (List V → Option (List V))) (consts leaves args : List V)
    (hc : consts.length = L.nconsts) (hl : leaves.length = L.nleaves) (kw1 kw2 : Kwargs K) (rng : Option V)
    (h2 : kw2 "has_rng" = none) :
    layerRule py L f (merge (insert (erase kw1 "rng") "has_rng" (py.ofBool rng.isSome)) kw2)
        (consts ++ (leaves ++ (rng.toList ++ args))) =
      layerSpec L leaves args (inForce py kw1 rng kw2) := by
  have hh : hasRng py (merge (insert (erase kw1 "rng") "has_rng" (py.ofBool rng.isSome)) kw2) = rng.isSome := by
    simp [hasRng, merge, h2, insert, py.truthy_ofBool]
  simp only [layerRule, drop_parts L consts leaves _ hc, ← hl, List.take_left, List.drop_left, hh, callAndUpdate_spec]
  cases rng with
  | none =>
    simp only [Option.isSome_none, Bool.false_eq_true, if_false, Option.toList_none, List.nil_append]
    congr 1
    funext k
    simp only [inForce, erase, merge, insert, rngOf]
    by_cases h3 : k = "rng"
    · subst h3; simp
    · by_cases h1 : k = "has_rng"
      · subst h1; simp
      · simp [h1, h3]
  | some v =>
    simp only [Option.isSome_some, if_true, Option.toList_some, List.cons_append, List.nil_append]
    congr 1
    funext k
    simp only [inForce, erase, merge, insert, rngOf]
    by_cases h3 : k = "rng"
    · subst h3; simp [py.asKey_key]
    · by_cases h1 : k = "has_rng"
      · subst h1; simp
      · simp [h1, h3]

/-- The staged implementation runs with the keyword arguments with which the layer was called. -/
theorem layer_staged (py : Py V K) (L : Layer V K) (f : Option (List V → Option (List V))) (consts leaves args : List V)
    (hc : consts.length = L.nconsts) (hl : leaves.length = L.nleaves) (kw1 : Kwargs K) (rng : Option V) :
    layerBind py L f (insert (erase kw1 "rng") "has_rng" (py.ofBool rng.isSome))
        (consts ++ (leaves ++ (rng.toList ++ args))) =
      layerSpec L leaves args (inForce py kw1 rng (fun _ => none)) := by
  have hh : hasRng py (insert (erase kw1 "rng") "has_rng" (py.ofBool rng.isSome)) = rng.isSome := by
    simp [hasRng, insert, py.truthy_ofBool]
  simp only [layerBind, drop_parts L consts leaves _ hc, ← hl, List.take_left, List.drop_left, cauImpl, hh]
  cases rng with
  | none =>
    simp only [Option.isSome_none, Bool.false_eq_true, if_false, Option.toList_none, List.nil_append, layerSpec, given_noRng]
  | some v =>
    simp only [Option.isSome_some, if_true, Option.toList_some, List.cons_append, List.nil_append, layerSpec]
    have : insert (erase (insert (erase kw1 "rng") "has_rng" (py.ofBool true)) "has_rng") "rng" (py.key v) =
        inForce py kw1 (some v) (fun _ => none) := by
      funext k
      simp only [inForce, erase, insert, rngOf]
      by_cases h3 : k = "rng"
      · subst h3; simp
      · by_cases h1 : k = "has_rng"
        · subst h1; simp
        · simp [h1, h3]
    rw [this]

/-- Specification: running a function that calls layers, with `kw2` given to each layer on top of its own keyword
arguments; inside the jaxprs of primitives that are not calls the layers only have their own. -/
def srcRun (py : Py V K) (bind : P → Sem V K) : Kwargs K → Src P V K → Env V → Option (List V)
  | _, .done outs, env => outs.mapM (read env)
  | kw2, .layer L kw1 rng _ leaves args outs rest, env => do
    let ls ← leaves.mapM (read env)
    let r ← rng.toList.mapM (read env)
    let xs ← args.mapM (read env)
    let ans ← layerSpec L ls xs (inForce py kw1 r.head? kw2)
    let env' ← writeAll env outs ans
    srcRun py bind kw2 rest env'
  | kw2, .prim p recorded ins outs rest, env => do
    let xs ← ins.mapM (read env)
    let r ← bind p none recorded xs
    let env' ← writeAll env outs r
    srcRun py bind kw2 rest env'
  | kw2, .sub isCall p recorded invars body ins outs rest, env => do
    let xs ← ins.mapM (read env)
    let r ← bind p (some (fun ys => (writeAll (fun _ => none) invars ys).bind
      (fun e => if isCall then srcRun py bind kw2 body e else srcRun py bind (fun _ => none) body e))) recorded xs
    let env' ← writeAll env outs r
    srcRun py bind kw2 rest env'

/-- The calls of layers have as many constants and leaves as the layers; constants are literals. -/
def Src.Fits : Src P V K → Prop
  | .done _ => True
  | .layer L _ _ consts leaves _ _ rest =>
    consts.length = L.nconsts ∧ (∀ a ∈ consts, ∃ v, a = .lit v) ∧ leaves.length = L.nleaves ∧ rest.Fits
  | .prim _ _ _ _ rest => rest.Fits
  | .sub _ _ _ _ body _ _ rest => body.Fits ∧ rest.Fits

theorem mapM_append_opt {α β : Type} (g : α → Option β) (l m : List α) :
    (l ++ m).mapM g = (l.mapM g).bind (fun a => (m.mapM g).map (a ++ ·)) := by
  induction l with
  | nil => simp
  | cons x l ih =>
    simp only [List.cons_append, List.mapM_cons, ih]
    rcases g x with _ | y
    · rfl
    · rcases l.mapM g with _ | ys
      · rfl
      · rcases m.mapM g with _ | zs <;> rfl

theorem mapM_length {α β : Type} (g : α → Option β) (l : List α) (r : List β) (h : l.mapM g = some r) :
    r.length = l.length := by
  induction l generalizing r with
  | nil => simp at h; subst h; rfl
  | cons x l ih =>
    simp only [List.mapM_cons, Option.bind_eq_bind, Option.bind_eq_some_iff, Option.pure_def, Option.some.injEq] at h
    obtain ⟨y, -, ys, hys, rfl⟩ := h
    simp [ih ys hys]

theorem mapM_lits (env : Env V) (consts : List (Atom V)) (h : ∀ a ∈ consts, ∃ v, a = .lit v) :
    ∃ cs, consts.mapM (read env) = some cs := by
  induction consts with
  | nil => exact ⟨[], rfl⟩
  | cons a l ih =>
    obtain ⟨cs, hcs⟩ := ih (fun b hb => h b (by simp [hb]))
    obtain ⟨v, rfl⟩ := h a (by simp)
    exact ⟨v :: cs, by simp [List.mapM_cons, read, hcs]⟩

/-- What evaluating a staged call of a layer comes to, for a rule that runs the layer. -/
theorem layer_eqn (py : Py V K) (L : Layer V K) (sem : List V → Option (List V)) (kw1 kw2 : Kwargs K)
    (rng : Option (Atom V)) (consts leaves args : List (Atom V)) (env : Env V) (rest : List V → Option (List V))
    (hc : consts.length = L.nconsts) (hlit : ∀ a ∈ consts, ∃ v, a = Atom.lit v) (hl : leaves.length = L.nleaves)
    (hsem : ∀ (cs ls xs : List V) (r : Option V), cs.length = L.nconsts → ls.length = L.nleaves → r.isSome = rng.isSome →
      sem (cs ++ (ls ++ (r.toList ++ xs))) = layerSpec L ls xs (inForce py kw1 r kw2)) :
    ((consts ++ (leaves ++ (rng.toList ++ args))).mapM (read env)).bind (fun xs => (sem xs).bind rest) =
      (leaves.mapM (read env)).bind (fun ls => (rng.toList.mapM (read env)).bind (fun r =>
        (args.mapM (read env)).bind (fun xs => (layerSpec L ls xs (inForce py kw1 r.head? kw2)).bind rest))) := by
  obtain ⟨cs, hcs⟩ := mapM_lits env consts hlit
  simp only [mapM_append_opt, hcs, Option.bind_some, Option.bind_map]
  rcases hls : leaves.mapM (read env) with _ | ls
  · rfl
  rcases hr : rng.toList.mapM (read env) with _ | r
  · rfl
  rcases hxs : args.mapM (read env) with _ | xs
  · rfl
  simp only [Option.bind_some, Option.map_some, Function.comp]
  have hrl := mapM_length _ _ _ hr
  have hr2 : ∃ o : Option V, r = o.toList ∧ o.isSome = rng.isSome := by
    cases rng with
    | none =>
      simp only [Option.toList_none, List.length_nil, List.length_eq_zero_iff] at hrl
      exact ⟨none, hrl, rfl⟩
    | some a =>
      simp only [Option.toList_some, List.length_cons, List.length_nil, Nat.zero_add] at hrl
      obtain ⟨b, rfl⟩ := List.length_eq_one_iff.1 hrl
      exact ⟨some b, rfl, rfl⟩
  obtain ⟨o, rfl, ho⟩ := hr2
  rw [hsem cs ls xs o ((mapM_length _ _ _ hcs).trans hc) ((mapM_length _ _ _ hls).trans hl) ho]
  have : o.toList.head? = o := by cases o <;> rfl
  rw [this]

/-- The staged function is the function. -/
theorem plain_stage (py : Py V K) (bind : P → Sem V K) (src : Src P V K) (hf : src.Fits) :
    ∀ env, plain (lbind py bind) (stage py src) env = srcRun py bind (fun _ => none) src env := by
  induction src with
  | done outs => intro env; rfl
  | layer L kw1 rng consts leaves args outs rest ih =>
    intro env
    obtain ⟨hc, hlit, hl, hrest⟩ := hf
    simp only [stage, plain, srcRun, Option.bind_eq_bind, ih hrest]
    exact layer_eqn py L (fun xs => lbind py bind (.layer L) none _ xs) kw1 (fun _ => none) rng consts leaves args env _
      hc hlit hl (fun cs ls xs r h1 h2 h3 => by
        rw [← h3]; exact layer_staged py L none cs ls xs h1 h2 kw1 r)
  | prim p recorded ins outs rest ih =>
    intro env
    simp only [stage, plain, srcRun, lbind, ih hf]
  | sub c p recorded invars body ins outs rest ihb ih =>
    intro env
    obtain ⟨hb, hrest⟩ := hf
    have : plain (lbind py bind) (stage py body) = fun e =>
        if c = true then srcRun py bind (fun _ => none) body e else srcRun py bind (fun _ => none) body e := by
      funext e; rw [ihb hb]; simp
    simp only [stage, plain, srcRun, lbind, ih hrest, this]

/-- C69.  A function that calls layers, made into a module: calling the module with keyword arguments is running the
function with those keyword arguments given to every layer it calls, on top of the layer's own, at any depth of calls. -/
theorem module_kwargs_partial (py : Py V K) (bind : P → Sem V K) (src : Src P V K) (hf : src.Fits) (kw : Kwargs K)
    (h : kw "has_rng" = none) :
    ∀ env, evalK (lbind py bind) (lrules py) kw (stage py src) env = srcRun py bind kw src env := by
  induction src with
  | done outs => intro env; rfl
  | layer L kw1 rng consts leaves args outs rest ih =>
    intro env
    obtain ⟨hc, hlit, hl, hrest⟩ := hf
    simp only [stage, evalK, srcRun, execPrim, lrules, Option.bind_eq_bind, ih hrest]
    exact layer_eqn py L (fun xs => layerRule py L none _ xs) kw1 kw rng consts leaves args env _
      hc hlit hl (fun cs ls xs r h1 h2 h3 => by
        rw [← h3]; exact layer_in_module py L none cs ls xs h1 h2 kw1 kw r h)
  | prim p recorded ins outs rest ih =>
    intro env
    simp only [stage, evalK, srcRun, execPrim, lbind, lrules, ih hf]
  | sub c p recorded invars body ins outs rest ihb ih =>
    intro env
    obtain ⟨hb, hrest⟩ := hf
    have : (fun e => if c = true then evalK (lbind py bind) (lrules py) kw (stage py body) e
        else plain (lbind py bind) (stage py body) e) = fun e =>
        if c = true then srcRun py bind kw body e else srcRun py bind (fun _ => none) body e := by
      funext e; rw [ihb hb, plain_stage py bind body hb]
    simp only [stage, evalK, srcRun, execPrim, lbind, lrules, ih hrest, this]

theorem writeAll_append {V : Type} (xs ys : List Nat) (vs ws : List V) (h : vs.length = xs.length) :
    ∀ env : Env V, writeAll env (xs ++ ys) (vs ++ ws) = (writeAll env xs vs).bind fun e => writeAll e ys ws := by
  induction xs generalizing vs with
  | nil => cases vs with
    | nil => intro env; rfl
    | cons v vs => simp at h
  | cons x xs ih => cases vs with
    | nil => simp at h
    | cons v vs => intro env; simpa [writeAll] using ih vs (by simpa using h) _

theorem writeAll_lookup {V : Type} (xs : List Nat) (vs : List V) (hn : xs.Nodup) (h : vs.length = xs.length) :
    ∀ env : Env V, writeAll env xs vs = some fun y => ((xs.zip vs).lookup y).or (env y) := by
  induction xs generalizing vs with
  | nil => cases vs with
    | nil => intro env; simp [writeAll]
    | cons v vs => simp at h
  | cons x xs ih => cases vs with
    | nil => simp at h
    | cons v vs =>
      intro env
      rw [List.nodup_cons] at hn
      rw [writeAll, ih vs hn.2 (by simpa using h)]
      congr 1
      funext y
      simp only [List.zip_cons_cons, List.lookup]
      by_cases hy : y = x
      · subst hy
        have : (xs.zip vs).lookup y = none := by
          rw [List.lookup_eq_none_iff]
          intro p hp
          have := (List.of_mem_zip hp).1
          have hne : y ≠ p.1 := fun e => hn.1 (e ▸ this)
          simp [hne]
        simp [this]
      · simp [hy, beq_false_of_ne hy]

/-- C69.  A call of the module with keyword arguments: the function runs on the constants and arguments with those keyword
arguments given to every layer it calls (`module_kwargs_partial`). -/
theorem module_call_kwargs_partial (py : Py V K) (bind : P → Sem V K) (src : Src P V K) (hf : src.Fits) (kw : Kwargs K)
    (h : kw "has_rng" = none) (constvars invars : List Nat) (hn : (constvars ++ invars).Nodup) (consts args : List V)
    (hc : consts.length = constvars.length) (ha : args.length = invars.length) :
    cauJaxpr (lbind py bind) (lrules py) constvars invars (stage py src) consts args kw =
      srcRun py bind kw src fun y => ((constvars ++ invars).zip (consts ++ args)).lookup y := by
  have hw := writeAll_lookup (constvars ++ invars) (consts ++ args) hn (by simp [hc, ha]) (fun _ => none)
  rw [writeAll_append _ _ _ _ hc] at hw
  simp only [Option.or_none] at hw
  rw [← module_kwargs_partial py bind src hf kw h]
  unfold cauJaxpr
  cases h1 : writeAll (fun _ => (none : Option V)) constvars consts with
  | none => rw [h1] at hw; cases hw
  | some e1 =>
    rw [h1] at hw
    change writeAll e1 invars args = _ at hw
    change (writeAll e1 invars args).bind _ = _
    rw [hw]
    rfl

theorem writeAll_lengths {V : Type} (xs : List Nat) (vs : List V) (h : vs.length ≠ xs.length) :
    ∀ env : Env V, writeAll env xs vs = none := by
  induction xs generalizing vs with
  | nil => cases vs with
    | nil => exact absurd rfl h
    | cons v vs => intro env; rfl
  | cons x xs ih => cases vs with
    | nil => intro env; rfl
    | cons v vs => intro env; exact ih vs (by simpa using h) _

/-- C69.  A call of the module with another number of arrays raises. -/
theorem module_call_arity (bind : P → Sem V K) (rules : P → Option (Sem V K)) (code : Code P V K) (kw : Kwargs K)
    (constvars invars : List Nat) (consts args : List V) (ha : args.length ≠ invars.length) :
    cauJaxpr bind rules constvars invars code consts args kw = none := by
  unfold cauJaxpr
  cases writeAll (fun _ => (none : Option V)) constvars consts with
  | none => rfl
  | some e1 => simp only [Option.bind_eq_bind, Option.bind_some, writeAll_lengths invars args ha, Option.bind_none]

/-- Finding (C69).  A key given to the module is given as it is to every layer that has no key of its own: unlike in
`Serial`, it is not split, so stochastic layers of a function all draw with the same key. -/
theorem module_key_shared (py : Py V K) (kw1 kw2 : Kwargs K) :
    inForce py kw1 none kw2 "rng" = (rngOf py kw2).map py.key := by
  simp [inForce]

/-- C69.  A key that the function gives to a layer is not replaced by the one given to the module. -/
theorem module_key_kept (py : Py V K) (kw1 kw2 : Kwargs K) (v : V) :
    inForce py kw1 (some v) kw2 "rng" = some (py.key v) := by
  simp [inForce]

/-! ### Instances -/

/-- Python values for the instances: integers and truth values. -/
def demoPy : Py Int (Int ⊕ Bool) where
  key := .inl
  asKey := fun | .inl v => some v | .inr _ => none
  ofBool := .inr
  truthy := fun | .inl v => v != 0 | .inr b => b
  asKey_key := fun _ => rfl
  truthy_ofBool := fun _ => rfl

/-- `def _call(self, x, training=True)`: `x + 100` if training, otherwise `x`; stateless (function_test.py of
experimental/nn: `IsTraining`). -/
def demoLayer : Layer Int (Int ⊕ Bool) where
  nconsts := 0
  nleaves := 0
  callSig := ⟨[⟨"x", .positionalOrKeyword, false⟩, ⟨"training", .positionalOrKeyword, true⟩], [], false⟩
  updSig := ⟨[], [], true⟩
  call _ args kw := match args, kw "training" with
    | [x], some (.inr false) => some [x]
    | [x], _ => some [x + 100]
    | _, _ => none
  update _ _ _ := some []

/-- The call primitive `true` and `pjit`, `false`, both apply their function. -/
def demoBind : Bool → Sem Int (Int ⊕ Bool) := fun _ f _ xs => match f with
  | some f => f xs
  | none => some xs

/-- A layer, a layer inside a call and a layer inside `pjit`. -/
def demoSrc : Src Bool Int (Int ⊕ Bool) :=
  .layer demoLayer (fun _ => none) none [] [] [.var 0] [1]
    (.sub true true (fun _ => none) [0] (.layer demoLayer (fun _ => none) none [] [] [.var 0] [1] (.done [.var 1]))
      [.var 1] [2]
      (.sub false false (fun _ => none) [0] (.layer demoLayer (fun _ => none) none [] [] [.var 0] [1] (.done [.var 1]))
        [.var 2] [3] (.done [.var 1, .var 2, .var 3])))

/-- `training=False`. -/
def demoKw : Kwargs (Int ⊕ Bool) := fun k => if k = "training" then some (.inr false) else none

/-- `module_kwargs_partial` applies to it. -/
example (env : Env Int) : evalK (lbind demoPy demoBind) (lrules demoPy) demoKw (stage demoPy demoSrc) env =
    srcRun demoPy demoBind demoKw demoSrc env :=
  module_kwargs_partial demoPy demoBind demoSrc (by simp [demoSrc, Src.Fits, demoLayer]) demoKw (by simp [demoKw]) env

/-- `module_call_kwargs_partial` applies to a call of its module at 7: the layer inside `pjit` trains. -/
example : cauJaxpr (lbind demoPy demoBind) (lrules demoPy) [] [0] (stage demoPy demoSrc) [] [7] demoKw =
    srcRun demoPy demoBind demoKw demoSrc (fun y => ([0].zip [7]).lookup y) ∧
    cauJaxpr (lbind demoPy demoBind) (lrules demoPy) [] [0] (stage demoPy demoSrc) [] [7] demoKw = some [7, 7, 107] :=
  ⟨module_call_kwargs_partial demoPy demoBind demoSrc (by simp [demoSrc, Src.Fits, demoLayer]) demoKw (by simp [demoKw])
    [] [0] (by simp) [] [7] rfl rfl, by decide +kernel⟩

/-- Without keyword arguments all three add 100. -/
example : evalK (lbind demoPy demoBind) (lrules demoPy) (fun _ => none) (stage demoPy demoSrc) (fun _ => some 7) =
    some [107, 207, 307] := by decide +kernel

/-- Finding: with `training=False` the layer inside `pjit` still trains. -/
theorem kwargs_lost_in_pjit :
    evalK (lbind demoPy demoBind) (lrules demoPy) demoKw (stage demoPy demoSrc) (fun _ => some 7) = some [7, 7, 107] := by
  decide +kernel

/-- `module_custom_jvp_raises`: `lambda x: relu(x)`, where `relu` is the primitive `false`, runs, and the module raises;
`module_runs`: with a rule for it the module runs. -/
example :
    let relu : Code Bool Int (Int ⊕ Bool) :=
      .sub false false (fun _ => none) [0] (.prim true (fun _ => none) [.var 0] [1] (.done [.var 1])) [.var 0] [1] (.done [.var 1])
    plain demoBind relu (fun _ => some 7) = some [7] ∧
    evalK demoBind (rawRules (! ·) (fun _ => none)) (fun _ => none) relu (fun _ => some 7) = none ∧
    evalK demoBind (rawRules (! ·) (fun p => if p then none else some (demoBind p))) (fun _ => none) relu
      (fun _ => some 7) = some [7] := by
  decide +kernel

/-- `kwargs_override` applies: rules that are the primitives. -/
example (env : Env Int) (code : Code Bool Int (Int ⊕ Bool)) :
    evalK demoBind (fun p => if p then some (demoBind p) else none) demoKw code env =
      plain demoBind (override (fun p => (if p then some (demoBind p) else none : Option (Sem Int (Int ⊕ Bool))).isSome)
        demoKw code) env :=
  kwargs_override demoBind _ (fun p r h f kw xs => by cases p <;> simp at h; subst h; rfl) demoKw code env

end Verif.State.Kw
