import Verif.LogProb.JointNamed

/-! C79: the properties of `joint_log_prob` and `trace_log_prob`. -/
namespace Verif.LogProb.Joint

open Verif.Propagate Verif.Inverse

/-! ### When the result is an error -/

/-- What a random variable needs: its parameters (not the constants and the key), and the other operands of its links. -/
def Draw.needs (D : Draw) : List Nat :=
  vars ((D.operands.drop D.numConsts).drop 1) ++ vars (D.links.flatMap fun l => l.1.operand)

/-- Every random variable is named, and what it needs is computed from arguments `known` and named random variables, not
from the key. -/
def Determined : List Nat → List Stmt → Prop
  | _, [] => True
  | known, .det _ ins outs :: rest => Determined (if ∀ x ∈ vars ins, x ∈ known then outs ++ known else known) rest
  | known, .draw D :: rest =>
    D.name ≠ none ∧ (∀ x ∈ D.needs, x ∈ known) ∧ Determined (D.value :: D.links.map (·.2) ++ known) rest
  | known, .tag _ _ :: rest => Determined known rest

theorem read_known {env : Env ICell} {A : List Nat} (h : ∀ x, env x ≠ none ↔ x ∈ A) (a : Atom F) :
    Propagate.read iOps env a ≠ none ↔ ∀ x ∈ vars [a], x ∈ A := by
  cases a with
  | lit v => simp [Propagate.read, iOps, vars, Atom.node]
  | var x => simpa [Propagate.read, vars, Atom.node] using h x
  | drop x => simpa [Propagate.read, vars, Atom.node] using h x

theorem vars_cons (a : Atom F) (as : List (Atom F)) : vars (a :: as) = vars [a] ++ vars as := by
  simp only [vars]
  rw [← List.filterMap_append]
  rfl

theorem reads_known {env : Env ICell} {A : List Nat} (h : ∀ x, env x ≠ none ↔ x ∈ A) (as : List (Atom F)) :
    (as.map (Propagate.read iOps env)).mapM id ≠ none ↔ ∀ x ∈ vars as, x ∈ A := by
  induction as with
  | nil => simp [vars]
  | cons a as ih =>
    have h1 := read_known h a
    rw [vars_cons]
    simp only [List.mem_append, or_imp, forall_and]
    rw [← h1, ← ih]
    simp only [List.map_cons, List.mapM_cons, id_eq, Option.bind_eq_bind, Option.pure_def]
    rcases Propagate.read iOps env a with _ | c
    · simp
    · rcases (as.map (Propagate.read iOps env)).mapM id with _ | cs <;> simp

theorem back_known {env : Env ICell} {A : List Nat} (h : ∀ x, env x ≠ none ↔ x ∈ A) (l : Link) (c : ICell) :
    l.back env c ≠ none ↔ c ≠ none ∧ ∀ x ∈ vars l.operand, x ∈ A := by
  cases l with
  | un p => cases c <;> simp [Link.back, Link.operand, vars]
  | left p a =>
    rw [Link.operand, ← read_known h a]
    cases c <;> rcases hr : Propagate.read iOps env a <;> simp [Link.back, hr]
  | right p a =>
    rw [Link.operand, ← read_known h a]
    cases c <;> rcases hr : Propagate.read iOps env a <;> simp [Link.back, hr]

theorem vars_append (as bs : List (Atom F)) : vars (as ++ bs) = vars as ++ vars bs := by simp [vars]

theorem chain_known {env : Env ICell} {A : List Nat} (h : ∀ x, env x ≠ none ↔ x ∈ A) (ls : List (Link × Nat)) (c : ICell) :
    chainCell env ls c ≠ none ↔ c ≠ none ∧ ∀ x ∈ vars (ls.flatMap fun l => l.1.operand), x ∈ A := by
  induction ls with
  | nil => simp [chainCell, vars]
  | cons p ls ih =>
    obtain ⟨l, y⟩ := p
    rw [chainCell, back_known h, ih, List.flatMap_cons, vars_append]
    simp only [List.mem_append, or_imp, forall_and]
    tauto

theorem put_known {env : Env ICell} {A : List Nat} (h : ∀ x, env x ≠ none ↔ x ∈ A) (x : Nat) (c : ICell) (hc : c ≠ none) :
    ∀ y, put env x c y ≠ none ↔ y ∈ x :: A := by
  intro y
  simp only [put, List.mem_cons]
  split
  · rename_i he; simp [he, hc]
  · rename_i he; simp [he, h y]

theorem putAll_known (xs : List Nat) : ∀ (env : Env ICell) (A : List Nat), (∀ x, env x ≠ none ↔ x ∈ A) → ∀ cs : List F,
    cs.length = xs.length → ∀ y, putAll env xs (cs.map fun v => some (v, some 0)) y ≠ none ↔ y ∈ xs ++ A := by
  induction xs with
  | nil =>
    intro env A h cs hl y
    simpa [putAll] using h y
  | cons x xs ih =>
    intro env A h cs hl y
    obtain _ | ⟨c, cs⟩ := cs
    · simp at hl
    have := ih (put env x (some (c, some 0))) (x :: A) (put_known h x _ (by simp)) cs (by simpa using hl) y
    simp only [List.map_cons, putAll]
    rw [this]
    simp only [List.mem_append, List.mem_cons]
    tauto

theorem putChain_known {env0 : Env ICell} {A : List Nat} (h0 : ∀ x, env0 x ≠ none ↔ x ∈ A) (ls : List (Link × Nat)) :
    ∀ (t : Nat) (c : ICell), c ≠ none → (∀ x ∈ vars (ls.flatMap fun l => l.1.operand), x ∈ A) →
      ∀ (env : Env ICell) (B : List Nat), (∀ x, env x ≠ none ↔ x ∈ B) →
      ∀ y, putChain env0 t ls c env y ≠ none ↔ y ∈ t :: ls.map (·.2) ++ B := by
  induction ls with
  | nil =>
    intro t c hc _ env B h
    exact put_known h t c hc
  | cons p ls ih =>
    obtain ⟨l, z⟩ := p
    intro t c hc hv env B h y
    have hv' : ∀ x ∈ vars (ls.flatMap fun l => l.1.operand), x ∈ A := fun x hx => hv x (by
      rw [List.flatMap_cons, vars_append]; exact List.mem_append_right _ hx)
    have := ih z c hc hv' env B h
    have := put_known this t (chainCell env0 ((l, z) :: ls) c) ((chain_known h0 _ c).2 ⟨hc, hv⟩) y
    simpa [putChain] using this

/-- A term is missing exactly when a random variable is not named or needs a value that comes from the key. -/
theorem terms_known (lat : String → Option F) (body : List Stmt) : ∀ (env : Env ICell) (A : List Nat),
    (∀ x, env x ≠ none ↔ x ∈ A) → (∀ st ∈ body, st.Sized) →
    (∀ D ∈ draws body, ∀ n, D.name = some n → lat n ≠ none) →
    ((terms lat env body).mapM id ≠ none ↔ Determined A body) := by
  induction body with
  | nil => intro env A _ _ _; simp [terms, Determined]
  | cons st rest ih =>
    intro env A h hs hn
    have hs' : ∀ st ∈ rest, st.Sized := fun s hs2 => hs s (by simp [hs2])
    cases st with
    | tag n a => exact ih env A h hs' hn
    | det op ins outs =>
      refine ih (Stmt.run lat env (.det op ins outs)) _ ?_ hs' hn
      intro x
      simp only [Stmt.run]
      have hk := reads_known h ins
      rcases hc : (ins.map (Propagate.read iOps env)).mapM id with _ | cs
      · rw [hc] at hk
        rw [if_neg (fun hx => hk.2 hx rfl)]
        exact h x
      · rw [hc] at hk
        rw [if_pos (hk.1 (by simp))]
        have hlen : cs.length = ins.length := by
          have := mapM_id_length _ _ hc
          simpa using this
        exact putAll_known outs env A h _ ((hs (.det op ins outs) (by simp)).2 _ (by simp [hlen])).1 x
    | draw D =>
      have hn' : ∀ D ∈ draws rest, ∀ n, D.name = some n → lat n ≠ none := fun E hE => hn E (by simp [draws, hE])
      have hg : D.given lat ≠ none ↔ D.name ≠ none := by
        rcases hD : D.name with _ | n
        · simp [Draw.given, hD]
        · have := hn D (by simp [draws]) n hD
          rcases hv : lat n with _ | v
          · exact absurd hv this
          · simp [Draw.given, hD, hv]
      have ht : D.term lat env ≠ none ↔ D.name ≠ none ∧ ∀ x ∈ D.needs, x ∈ A := by
        have e1 := reads_known h ((D.operands.drop D.numConsts).drop 1)
        have e2 := chain_known h D.links (D.given lat)
        rw [hg] at e2
        simp only [Draw.needs, List.mem_append, or_imp, forall_and]
        rw [← e1]
        rw [show (D.name ≠ none ∧ ((((D.operands.drop D.numConsts).drop 1).map (Propagate.read iOps env)).mapM id ≠ none ∧
            ∀ x ∈ vars (D.links.flatMap fun l => l.1.operand), x ∈ A)) ↔
            ((((D.operands.drop D.numConsts).drop 1).map (Propagate.read iOps env)).mapM id ≠ none ∧
              chainCell env D.links (D.given lat) ≠ none) by rw [e2]; tauto]
        simp only [Draw.term]
        rcases (((D.operands.drop D.numConsts).drop 1).map (Propagate.read iOps env)).mapM id with _ | ps
        · simp
        · rcases chainCell env D.links (D.given lat) with _ | ⟨v, l⟩ <;> simp
      simp only [terms, Determined]
      simp only [List.cons_append, List.nil_append, List.mapM_cons, id_eq, Option.bind_eq_bind, Option.pure_def]
      rw [← and_assoc, ← ht]
      rcases hf : D.term lat env with _ | f
      · simp
      · obtain ⟨h1, h2⟩ := ht.1 (by rw [hf]; simp)
        have hnext := ih (Stmt.run lat env (.draw D)) (D.value :: (D.links.map (·.2) ++ A))
          (putChain_known h D.links D.value _ (hg.2 h1) (fun x hx => h2 x (List.mem_append_right _ hx)) env A h) hs' hn'
        rw [← hnext]
        rcases (terms lat (Stmt.run lat env (.draw D)) rest).mapM id with _ | ts <;> simp

/-! ### The properties -/

variable {S : Source}

theorem sown_draw {D : Draw} {n : String} (body : List Stmt) (hD : D ∈ draws body) (hn : D.name = some n) :
    (n, Atom.var (lastVar D.value D.links)) ∈ body.flatMap Stmt.sown := by
  induction body with
  | nil => simp [draws] at hD
  | cons st rest ih =>
    rw [List.flatMap_cons, List.mem_append]
    cases st with
    | det op ins outs => exact .inr (ih hD)
    | tag m a => exact .inr (ih hD)
    | draw E =>
      rcases List.mem_cons.1 (by simpa [draws] using hD : D ∈ E :: draws rest) with rfl | h
      · exact .inl (by simp [Stmt.sown, hn])
      · exact .inr (ih h)

theorem name_mem {D : Draw} {n : String} (hD : D ∈ draws S.body) (hn : D.name = some n) : n ∈ S.names :=
  List.mem_map.2 ⟨_, sown_draw S.body hD hn, rfl⟩

/-- C79 (value).  Every run of `joint_log_prob(f)` on values for the names of `f` returns what the statement-by-statement
evaluation of `f` at these values gives, without the statements that no named value depends on: the sum over the random
variables of the log density of the drawn value plus the ILDJ of the operations applied to it.  Missing: programs that also
name deterministic values (for which it is false, see `joint_log_prob_tagged_wrong`), and named random variables inside the
function of another. -/
theorem joint_log_prob_value_partial (h : S.WF) (hT : S.NoTags) (latents : List (String × F)) (args : List F)
    (hl : args.length = S.args.length) (hn : S.names.Nodup) (hk : (latents.map (·.1)).Perm S.names) (res : Except JErr F) :
    JointLogProb S latents args res ↔ res = S.alive.joint (dict latents) args :=
  run_value h hT [] [] latents args hl hn hk (by intro a ha; simp at ha) (by simp) res

/-- C79 (value), when all random variables are named. -/
theorem joint_log_prob_named_partial (h : S.WF) (hT : S.NoTags) (latents : List (String × F)) (args : List F)
    (hl : args.length = S.args.length) (hn : S.names.Nodup) (hk : (latents.map (·.1)).Perm S.names)
    (hnm : ∀ D ∈ draws S.body, D.name ≠ none) (res : Except JErr F) :
    JointLogProb S latents args res ↔ res = S.joint (dict latents) args := by
  rw [joint_log_prob_value_partial h hT latents args hl hn hk, alive_joint hnm]

/-- C79 (errors).  `joint_log_prob(f)` on values for the names of `f` raises `ValueError` exactly when some random variable
that a named value depends on is not named, or has parameters that cannot be computed from the arguments and the named
values. -/
theorem joint_log_prob_cannot_partial (h : S.WF) (hT : S.NoTags) (latents : List (String × F)) (args : List F)
    (hl : args.length = S.args.length) (hn : S.names.Nodup) (hk : (latents.map (·.1)).Perm S.names) :
    JointLogProb S latents args (.error .cannot) ↔ ¬ Determined S.args S.alive.body := by
  rw [joint_log_prob_value_partial h hT latents args hl hn hk]
  have := terms_known (dict latents) S.alive.body (argEnv S.args args) S.args
    (by
      intro x
      have := putAll_known S.args (fun _ => none) [] (by simp) args hl x
      simpa [argEnv] using this)
    (fun st hst => h.sized st (alive_sub st hst))
    (by
      intro D hD n hDn
      obtain ⟨⟨k, v⟩, h1, rfl⟩ := List.mem_map.1 (hk.symm.subset
        (name_mem (draws_mem.2 (alive_sub _ (draws_mem.1 hD))) hDn))
      rw [lookup_of_mem (hk.nodup_iff.2 hn) h1]; simp)
  rw [← this]
  have hargs : S.alive.args = S.args := rfl
  simp only [Source.joint, hargs]
  rcases (terms (dict latents) (argEnv S.args args) S.alive.body).mapM id with _ | ts <;> simp

theorem tells_argEnv (val : Nat → ℝ) (xs : List Nat) :
    ∀ x, Tells (some (val x)) (argEnv xs (xs.map fun x => some (val x)) x) :=
  tells_putAll xs _ (fun _ => tells_none _) _ rfl

/-- From the value to the density. -/
theorem joint_density (val : Nat → ℝ) (latents : List (String × F)) (hk : (latents.map (·.1)).Perm S.names) (hn : S.names.Nodup)
    (hr : ∀ st ∈ S.body, st.Runs val) (hv : ∀ n a, (n, a) ∈ S.body.flatMap Stmt.sown → (n, aval val a) ∈ latents) (r : ℝ)
    (hj : S.joint (dict latents) (S.args.map fun x => some (val x)) = .ok (some r)) :
    (∀ D ∈ draws S.body, (∃ b, D.base val = some b) ∧ deriv (pushes val D.links) (val D.value) ≠ 0) ∧
      r = ((draws S.body).map fun D => D.logDensity val).sum := by
  simp only [Source.joint] at hj
  rcases ht : (terms (dict latents) (argEnv S.args (S.args.map fun x => some (val x))) S.body).mapM id with _ | ts
  · simp [ht] at hj
  simp only [ht, Except.ok.injEq] at hj
  refine terms_spec S.body _ (tells_argEnv val S.args) hr ?_ ts ht r hj
  intro D hD n hDn
  exact lookup_of_mem (hk.nodup_iff.2 hn) (hv n _ (sown_draw S.body hD hDn))

/-- C79 (density).  Let `val` be an execution of the program `f(key, *args)` whose random variables may have drawn any
numbers, with the operations applied to these on the branches of their registered inverses.  If `joint_log_prob(f)` at the
named values of this execution returns a number, it is the log of the joint density of the named values by the chain rule and
the change of variables: the sum over the random variables (that named values depend on) of the log density of the drawn value at the parameters of the
execution, minus the log of the absolute derivative of the function applied to the drawn value. -/
theorem joint_log_prob_density_partial (h : S.WF) (hT : S.NoTags) (hn : S.names.Nodup) (val : Nat → ℝ)
    (hr : ∀ st ∈ S.body, st.Runs val) (latents : List (String × F)) (hk : (latents.map (·.1)).Perm S.names)
    (hv : ∀ n a, (n, a) ∈ S.body.flatMap Stmt.sown → (n, aval val a) ∈ latents) (r : ℝ)
    (hj : JointLogProb S latents (S.args.map fun x => some (val x)) (.ok (some r))) :
    (∀ D ∈ draws S.alive.body, D.name ≠ none ∧ (∃ b, D.base val = some b) ∧
      deriv (pushes val D.links) (val D.value) ≠ 0) ∧
      r = ((draws S.alive.body).map fun D => D.logDensity val).sum := by
  have hj' := ((joint_log_prob_value_partial h hT latents _ (by simp) hn hk _).1 hj).symm
  obtain ⟨h1, h2⟩ := joint_density (S := S.alive) val latents (by rw [alive_names]; exact hk) (by rw [alive_names]; exact hn)
    (fun st hst => hr st (alive_sub st hst)) (by rw [alive_sown]; exact hv) r hj'
  refine ⟨fun D hD => ⟨fun hc => ?_, h1 D hD⟩, h2⟩
  rw [joint_unnamed hD hc] at hj'
  cases hj'

/-- The value of an output is known from the arguments and the values of the names: it is a constant, an argument, or a
named value. -/
def OutIs (S : Source) (latents : List (String × F)) (args : List F) (a : Atom F) (v : F) : Prop :=
  a = .lit v ∨ (∃ (i : Nat) (x : Nat), a = .var x ∧ S.args[i]? = some x ∧ args[i]? = some v) ∨
    ∃ n x, a = .var x ∧ (n, a) ∈ S.body.flatMap Stmt.sown ∧ (n, v) ∈ latents

theorem final_named {S : Source} (h : S.WF) (hT : S.NoTags) (latents : List (String × F)) (args : List F) (hn : S.names.Nodup)
    (hk : (latents.map (·.1)).Perm S.names) {n : String} {x : Nat} {v : F} (h1 : (n, Atom.var x) ∈ S.body.flatMap Stmt.sown)
    (h2 : (n, v) ∈ latents) : S.final (dict latents) args x = some (v, some 0) := by
  obtain ⟨hb1, hb2, hb3, hb4, hb5⟩ := WF.body h
  have hnone : ∀ x ∈ S.body.flatMap Stmt.defs, argEnv S.args args x = none := by
    intro x hx
    rw [argEnv, putAll_frame]
    exact fun hc => hb3 x hc hx
  have heqs := runAll_eqs (dict latents) S.body (argEnv S.args args) h.sized h.order hb1 hnone
  have hlk := lookup_of_mem (hk.nodup_iff.2 hn) h2
  obtain ⟨st, h3, h4⟩ := List.mem_flatMap.1 h1
  cases st with
  | det op ins outs => simp [Stmt.sown] at h4
  | tag m a => exact absurd rfl (hT _ h3 m a)
  | draw D =>
    rcases hD : D.name with _ | m
    · simp [Stmt.sown, hD] at h4
    · simp [Stmt.sown, hD] at h4
      obtain ⟨rfl, rfl⟩ := h4
      have := chainEq_last _ _ _ _ (heqs _ h3)
      rw [Source.final, this]
      simp [Draw.given, hD, hlk]

/-- C79 (trace).  If the outputs of `f` are constants, arguments or named values, `trace_log_prob(f)(out, latents, *args)`
with the outputs that belong to `latents` and `args` is `joint_log_prob(f)(latents, *args)`. -/
theorem trace_log_prob_value_partial (h : S.WF) (hT : S.NoTags) (latents : List (String × F)) (args obs : List F)
    (hl : args.length = S.args.length) (hn : S.names.Nodup) (hk : (latents.map (·.1)).Perm S.names)
    (ho : List.Forall₂ (OutIs S latents args) S.outs obs) (res : Except JErr F) :
    TraceLogProb S obs latents args res ↔ JointLogProb S latents args res := by
  rw [joint_log_prob_value_partial h hT latents args hl hn hk]
  have hnames : (S.trimmed S.outs).names = S.names := by rw [Source.names, trimmed_sown]; rfl
  have hwf := trimmed_wf h S.outs
  have hT' : (S.trimmed S.outs).NoTags := trim_noTags S.body _ hT
  refine run_value h hT S.outs obs latents args hl hn hk ?_ ?_ res
  · intro a ha
    obtain ⟨i, hi⟩ := List.mem_iff_getElem?.1 ha
    have hlen := ho.length_eq
    have hlt : i < S.outs.length := (List.getElem?_eq_some_iff.1 hi).1
    have hai : S.outs[i] = a := (List.getElem?_eq_some_iff.1 hi).2
    have := ho.get hlt (by omega)
    simp only [List.get_eq_getElem, hai] at this
    rcases this with h1 | ⟨j, x, h1, h2, -⟩ | ⟨n, x, h1, h2, -⟩
    · exact .inl ⟨_, h1⟩
    · exact .inr ⟨x, h1, .inl (List.mem_of_getElem? h2)⟩
    · exact .inr ⟨x, h1, .inr ⟨n, h1 ▸ h2⟩⟩
  · generalize hT0 : S.trimmed S.outs = T at hnames hwf hT'
    have hTs : T.body.flatMap Stmt.sown = S.body.flatMap Stmt.sown := by rw [← hT0, trimmed_sown]
    have hTa : T.args = S.args := by rw [← hT0]; rfl
    generalize S.outs = outs at ho
    induction ho with
    | nil => rfl
    | @cons a v as vs h1 h2 ih =>
      simp only [List.map_cons]
      rw [ih]
      congr 1
      rcases h1 with rfl | ⟨j, x, rfl, h3, h4⟩ | ⟨n, x, rfl, h3, h4⟩
      · rfl
      · have h5 : (T.args.map (T.final (dict latents) args))[j]? = (args.map fun v => (some (v, some 0) : ICell))[j]? := by
          rw [final_args hwf (dict latents) args (by rw [hTa]; exact hl)]
        rw [List.getElem?_map, List.getElem?_map, hTa, h3, h4] at h5
        simpa [Propagate.read] using h5
      · exact final_named hwf hT' latents args (by rw [hnames]; exact hn) (by rw [hnames]; exact hk) (by rw [hTs]; exact h3) h4

/-- C79 (duplicate names).  Two random variables with one name are an error, whatever the values. -/
theorem joint_log_prob_duplicate (hn : ¬ S.names.Nodup) (latents : List (String × F)) (args : List F) (res : Except JErr F) :
    JointLogProb S latents args res ↔ res = .error .duplicate := by
  simp [JointLogProb, Run, hn]

/-- C79 (number of values).  A dictionary of another size than the number of names is an error. -/
theorem joint_log_prob_leaves (hn : S.names.Nodup) (latents : List (String × F)) (args : List F)
    (hl : latents.length ≠ S.names.length) (res : Except JErr F) :
    JointLogProb S latents args res ↔ res = .error .leaves := by
  have : (([] : List F) ++ latents.map (fun p => p.2)).length ≠ (S.prog []).outvars.length := by
    simpa [Source.prog, Source.results, Source.names, (sortByKey_perm _).length_eq] using hl
  simp only [JointLogProb, Run, hn, not_true_eq_false, if_false]
  rw [if_pos (.inl this)]

end Verif.LogProb.Joint
