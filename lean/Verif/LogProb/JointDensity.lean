import Verif.LogProb.JointMain
import Verif.Inverse.Grad

/-! C79: the terms of `joint_log_prob` are log densities of the named values by the change-of-variables formula. -/
namespace Verif.LogProb.Joint

open Verif.Propagate Verif.Inverse

/-! ### Specification -/

/-- A link as a function of the value it is applied to; the other operand has its value in the execution. -/
noncomputable def Link.map (val : Nat → ℝ) : Link → ℝ → ℝ
  | .un p => p.fr
  | .left p a => fun x => p.fr ((aval val a).getD 0, x)
  | .right p a => fun x => p.fr (x, (aval val a).getD 0)

/-- The function that `random_variable`'s function applies to the drawn value. -/
noncomputable def pushes (val : Nat → ℝ) : List (Link × Nat) → ℝ → ℝ
  | [] => fun x => x
  | (l, _) :: ls => fun x => pushes val ls (l.map val x)

/-- `val` executes `y = link(t)`, on the branch that the registered inverse chooses. -/
def Link.Runs (val : Nat → ℝ) (t y : Nat) : Link → Prop
  | .un p => p.f (val t) = some (val y) ∧ p.ok (val t) ∧ (p ≠ .reshape ∧ p ≠ .convert) ∧ (p = .sqrt → val t ≠ 0)
  | .left p a => ∃ w, aval val a = some w ∧ p.f w (val t) = some (val y) ∧ p.ok w (val t)
  | .right p a => ∃ w, aval val a = some w ∧ p.f (val t) w = some (val y) ∧ p.ok (val t) w

/-- All links. -/
def LinksRun (val : Nat → ℝ) : Nat → List (Link × Nat) → Prop
  | _, [] => True
  | t, (l, y) :: ls => l.Runs val t y ∧ LinksRun val y ls

/-- `val` executes the statement; the value drawn is any number. -/
def Stmt.Runs (val : Nat → ℝ) : Stmt → Prop
  | .det op ins outs => op.eval (ins.map (aval val)) = outs.map fun x => some (val x)
  | .draw D => LinksRun val D.value D.links
  | .tag _ _ => True

/-- The random variables of a program. -/
def draws : List Stmt → List Draw
  | [] => []
  | .draw D :: rest => D :: draws rest
  | _ :: rest => draws rest

/-- The log density of the drawn value given its parameters. -/
def Draw.base (D : Draw) (val : Nat → ℝ) : F :=
  D.logp (((D.operands.drop D.numConsts).drop 1).map (aval val)) [some (val D.value)]

/-- The log density of the value of the random variable, given the values before it: the density of the drawn value
divided by the absolute derivative of the function applied to it. -/
noncomputable def Draw.logDensity (D : Draw) (val : Nat → ℝ) : ℝ :=
  (D.base val).getD 0 - Real.log |deriv (pushes val D.links) (val D.value)|

/-! ### Proofs -/

theorem tells_read {val : Nat → ℝ} {env : Env ICell} (h : ∀ x, Tells (some (val x)) (env x)) (a : Atom F) :
    Tells (aval val a) (Propagate.read iOps env a) := by
  cases a with
  | lit v => exact tells_some _ _
  | var x => exact h x
  | drop x => exact h x

theorem tells_reads {val : Nat → ℝ} {env : Env ICell} (h : ∀ x, Tells (some (val x)) (env x)) (as : List (Atom F))
    (cs : List (F × F)) (hc : (as.map (Propagate.read iOps env)).mapM id = some cs) :
    cs.map (·.1) = as.map (aval val) := by
  refine forall2_some _ _ ?_ cs hc
  clear hc
  induction as with
  | nil => exact .nil
  | cons a as ih => exact .cons (tells_read h a) ih

theorem addF_some {a b : F} {r : ℝ} (h : addF a b = some r) : ∃ x y, a = some x ∧ b = some y ∧ r = x + y := by
  cases a <;> cases b <;> simp [addF] at h
  exact ⟨_, _, rfl, rfl, h.symm⟩

/-- One link backwards. -/
theorem Link.back_spec {val : Nat → ℝ} {env : Env ICell} (h : ∀ x, Tells (some (val x)) (env x)) (l : Link) (t y : Nat)
    (hr : l.Runs val t y) (m : F) (v k : F) (hb : l.back env (some (some (val y), m)) = some (v, k)) :
    v = some (val t) ∧ ∀ q, k = some q → ∃ b d', m = some b ∧ HasDerivAt (l.map val) d' (val t) ∧ d' ≠ 0 ∧
      q = b - Real.log |d'| := by
  cases l with
  | un p =>
    obtain ⟨h1, h2, h3, h4⟩ := hr
    simp only [Link.back, Option.map_some, Option.bind_some, Option.some.injEq, Prod.mk.injEq] at hb
    obtain ⟨rfl, rfl⟩ := hb
    refine ⟨p.left_inverse _ _ h2 h1, ?_⟩
    intro q hq
    have hld : p.ld m (some (val y)) = addF m (p.dlog (val y)) := by
      cases p <;> first | rfl | exact absurd rfl h3.1 | exact absurd rfl h3.2
    rw [hld] at hq
    rcases m with _ | b
    · simp [addF] at hq
    rcases hd : p.dlog (val y) with _ | d
    · simp [hd, addF] at hq
    obtain ⟨f', hf⟩ := p.hasDeriv _ _ h1 h4
    obtain ⟨h5, h6⟩ := p.dlog_forward h3 _ _ d f' h2 h1 h4 hd hf
    refine ⟨b, f', rfl, hf, h5, ?_⟩
    rw [hd] at hq
    obtain ⟨x, y, e1, e2, rfl⟩ := addF_some hq
    simp only [Option.some.injEq] at e1 e2
    rw [← e1, ← e2, h6]; ring
  | left p a =>
    obtain ⟨w, h1, h2, h3⟩ := hr
    rcases hc : Propagate.read iOps env a with _ | ⟨w', n⟩
    · simp [Link.back, hc] at hb
    have hw := tells_read h a _ _ hc
    rw [h1] at hw; subst hw
    simp only [Link.back, hc, Option.bind_some, Option.map_some, Option.some.injEq, Prod.mk.injEq] at hb
    obtain ⟨rfl, rfl⟩ := hb
    refine ⟨p.left_inverse _ _ _ h3 h2, ?_⟩
    intro q hq
    rcases m with _ | b
    · simp [addF] at hq
    rcases hd : p.ll w (val y) with _ | d
    · simp [bind2, hd, addF] at hq
    obtain ⟨α, β, hf, hβ, -⟩ := p.hasDeriv _ _ _ h2 h3
    obtain ⟨h5, h6⟩ := hβ d hd
    have hder : HasDerivAt (fun x => p.fr (w, x)) β (val t) := by
      have hg : HasDerivAt (fun x : ℝ => (w, x)) ((0 : ℝ), (1 : ℝ)) (val t) :=
        (hasDerivAt_const (val t) w).prodMk (hasDerivAt_id (val t))
      have h7 := hf.comp_hasDerivAt (val t) hg
      refine h7.congr_deriv ?_
      simp
    refine ⟨b, β, rfl, ?_, h5, ?_⟩
    · simpa [Link.map, h1] using hder
    · simp only [bind2, Option.bind_some] at hq
      obtain ⟨x, y, e1, e2, rfl⟩ := addF_some hq
      rw [hd] at e2
      simp only [Option.some.injEq] at e1 e2
      rw [← e1, ← e2, h6]; ring
  | right p a =>
    obtain ⟨w, h1, h2, h3⟩ := hr
    rcases hc : Propagate.read iOps env a with _ | ⟨w', n⟩
    · simp [Link.back, hc] at hb
    have hw := tells_read h a _ _ hc
    rw [h1] at hw; subst hw
    simp only [Link.back, hc, Option.bind_some, Option.map_some, Option.some.injEq, Prod.mk.injEq] at hb
    obtain ⟨rfl, rfl⟩ := hb
    refine ⟨p.right_inverse _ _ _ h3 h2, ?_⟩
    intro q hq
    rcases m with _ | b
    · simp [addF] at hq
    rcases hd : p.lr w (val y) with _ | d
    · simp [bind2, hd, addF] at hq
    obtain ⟨α, β, hf, -, hα⟩ := p.hasDeriv _ _ _ h2 h3
    obtain ⟨h5, h6⟩ := hα d hd
    have hder : HasDerivAt (fun x => p.fr (x, w)) α (val t) := by
      have hg : HasDerivAt (fun x : ℝ => (x, w)) ((1 : ℝ), (0 : ℝ)) (val t) :=
        (hasDerivAt_id (val t)).prodMk (hasDerivAt_const (val t) w)
      have h7 := hf.comp_hasDerivAt (val t) hg
      refine h7.congr_deriv ?_
      simp
    refine ⟨b, α, rfl, ?_, h5, ?_⟩
    · simpa [Link.map, h1] using hder
    · simp only [bind2, Option.bind_some] at hq
      obtain ⟨x, y, e1, e2, rfl⟩ := addF_some hq
      rw [hd] at e2
      simp only [Option.some.injEq] at e1 e2
      rw [← e1, ← e2, h6]; ring

theorem Link.map_val {val : Nat → ℝ} (l : Link) (t y : Nat) (hr : l.Runs val t y) : l.map val (val t) = val y := by
  cases l with
  | un p => simp [Link.map, Un.fr, hr.1]
  | left p a => obtain ⟨w, h1, h2, -⟩ := hr; simp [Link.map, Bin.fr, h1, h2]
  | right p a => obtain ⟨w, h1, h2, -⟩ := hr; simp [Link.map, Bin.fr, h1, h2]

/-- All links backwards. -/
theorem chainCell_spec {val : Nat → ℝ} {env : Env ICell} (h : ∀ x, Tells (some (val x)) (env x)) (ls : List (Link × Nat)) :
    ∀ t, LinksRun val t ls → ∀ c, Tells (some (val (lastVar t ls))) c → (∀ w m, c = some (w, m) → m = some 0) →
      ∀ v k, chainCell env ls c = some (v, k) → v = some (val t) ∧ ∀ q, k = some q →
        ∃ d', HasDerivAt (pushes val ls) d' (val t) ∧ d' ≠ 0 ∧ q = - Real.log |d'| := by
  induction ls with
  | nil =>
    intro t _ c hc hz v k hck
    simp only [chainCell] at hck
    refine ⟨hc _ _ hck, ?_⟩
    intro q hq
    have := hz _ _ hck
    rw [this] at hq
    simp only [Option.some.injEq] at hq
    exact ⟨1, hasDerivAt_id _, one_ne_zero, by simp [← hq]⟩
  | cons p ls ih =>
    obtain ⟨l, y⟩ := p
    intro t hr c hc hz v k hck
    simp only [chainCell] at hck
    rcases hm : chainCell env ls c with _ | ⟨w, m⟩
    · rw [hm] at hck
      cases l <;> simp [Link.back] at hck
    rw [hm] at hck
    obtain ⟨rfl, h2⟩ := ih y hr.2 c hc hz w m hm
    obtain ⟨rfl, h3⟩ := Link.back_spec h l t y hr.1 m v k hck
    refine ⟨rfl, ?_⟩
    intro q hq
    obtain ⟨b, d', rfl, h4, h5, h6⟩ := h3 q hq
    obtain ⟨d2, h7, h8, h9⟩ := h2 b rfl
    refine ⟨d2 * d', ?_, mul_ne_zero h8 h5, ?_⟩
    · have h10 : HasDerivAt (pushes val ls) d2 (l.map val (val t)) := by rw [Link.map_val l t y hr.1]; exact h7
      exact h10.comp (val t) h4
    · rw [h6, h9, abs_mul, Real.log_mul (abs_ne_zero.2 h8) (abs_ne_zero.2 h5)]; ring

theorem tells_put {val : Nat → ℝ} {env : Env ICell} (h : ∀ x, Tells (some (val x)) (env x)) (x : Nat) (c : ICell)
    (hc : Tells (some (val x)) c) : ∀ y, Tells (some (val y)) (put env x c y) := by
  intro y
  simp only [put]
  split
  · rename_i he; subst he; exact hc
  · exact h y

theorem tells_putAll {val : Nat → ℝ} (xs : List Nat) : ∀ (env : Env ICell), (∀ x, Tells (some (val x)) (env x)) →
    ∀ cs : List F, cs = xs.map (fun x => some (val x)) →
    ∀ y, Tells (some (val y)) (putAll env xs (cs.map fun v => some (v, some 0)) y) := by
  induction xs with
  | nil => rintro env h cs rfl y; exact h y
  | cons x xs ih =>
    rintro env h cs rfl
    exact ih _ (tells_put h x _ (tells_some _ _)) _ rfl

theorem tells_putChain {val : Nat → ℝ} {env0 : Env ICell} (h0 : ∀ x, Tells (some (val x)) (env0 x)) (ls : List (Link × Nat)) :
    ∀ t, LinksRun val t ls → ∀ c, Tells (some (val (lastVar t ls))) c → (∀ w m, c = some (w, m) → m = some 0) →
      ∀ env, (∀ x, Tells (some (val x)) (env x)) → ∀ y, Tells (some (val y)) (putChain env0 t ls c env y) := by
  induction ls with
  | nil => intro t _ c hc _ env h; exact tells_put h t c hc
  | cons p ls ih =>
    obtain ⟨l, y⟩ := p
    intro t hr c hc hz env h
    refine tells_put (ih y hr.2 c hc hz env h) t _ ?_
    intro w m hw
    exact (chainCell_spec h0 _ t hr c hc hz w m hw).1

/-- The given values are those of the execution. -/
def Matches (lat : String → Option F) (val : Nat → ℝ) (body : List Stmt) : Prop :=
  ∀ D ∈ draws body, ∀ n, D.name = some n → lat n = some (some (val (lastVar D.value D.links)))

theorem given_tells {lat : String → Option F} {val : Nat → ℝ} (D : Draw)
    (hm : ∀ n, D.name = some n → lat n = some (some (val (lastVar D.value D.links)))) :
    Tells (some (val (lastVar D.value D.links))) (D.given lat) ∧ ∀ w m, D.given lat = some (w, m) → m = some 0 := by
  rcases hn : D.name with _ | n
  · simp [Draw.given, hn, Tells]
  · simp only [Draw.given, hn, Option.bind_some, hm n hn, Option.map_some]
    exact ⟨tells_some _ _, by intro w m he; simp only [Option.some.injEq, Prod.mk.injEq] at he; exact he.2.symm⟩

theorem draws_cons_draw (D : Draw) (rest : List Stmt) : draws (.draw D :: rest) = D :: draws rest := rfl

theorem run_tells {lat : String → Option F} {val : Nat → ℝ} {env : Env ICell} (h : ∀ x, Tells (some (val x)) (env x))
    (st : Stmt) (hr : st.Runs val) (hm : Matches lat val [st]) : ∀ x, Tells (some (val x)) (st.run lat env x) := by
  cases st with
  | det op ins outs =>
    simp only [Stmt.run]
    rcases hc : (ins.map (Propagate.read iOps env)).mapM id with _ | cs
    · exact h
    · simp only [Stmt.Runs] at hr
      simp only []
      rw [tells_reads h ins cs hc, hr]
      exact tells_putAll outs env h _ rfl
  | draw D =>
    obtain ⟨h1, h2⟩ := given_tells D (hm D (by simp [draws]))
    exact tells_putChain h _ _ hr _ h1 h2 env h
  | tag n a => exact h

/-- The terms that are numbers are the log densities. -/
theorem terms_spec {lat : String → Option F} {val : Nat → ℝ} (body : List Stmt) :
    ∀ env : Env ICell, (∀ x, Tells (some (val x)) (env x)) → (∀ st ∈ body, st.Runs val) → Matches lat val body →
      ∀ ts, (terms lat env body).mapM id = some ts → ∀ r, sumF ts = some r →
        (∀ D ∈ draws body, (∃ b, D.base val = some b) ∧ deriv (pushes val D.links) (val D.value) ≠ 0) ∧
        r = ((draws body).map fun D => D.logDensity val).sum := by
  induction body with
  | nil =>
    intro env _ _ _ ts ht r hr
    simp only [terms, List.mapM_nil, Option.pure_def, Option.some.injEq] at ht
    subst ht
    simp [sumF] at hr
    simp [draws, ← hr]
  | cons st rest ih =>
    intro env h hr hm ts ht r hs
    have hm1 : Matches lat val [st] := by
      intro D hD n hn
      refine hm D ?_ n hn
      cases st with
      | draw E => simp [draws] at hD ⊢; exact .inl hD
      | det => simp [draws] at hD
      | tag => simp [draws] at hD
    have hm2 : Matches lat val rest := by
      intro D hD n hn
      refine hm D ?_ n hn
      cases st with
      | draw E => simp [draws]; exact .inr hD
      | det => exact hD
      | tag => exact hD
    have hnext := ih (st.run lat env) (run_tells h st (hr st (by simp)) hm1) (fun s hs => hr s (by simp [hs])) hm2
    cases st with
    | det op ins outs => exact hnext ts ht r hs
    | tag n a => exact hnext ts ht r hs
    | draw D =>
      simp only [terms, List.cons_append, List.nil_append, List.mapM_cons, id_eq, Option.bind_eq_bind, Option.bind_eq_some_iff,
        Option.pure_def, Option.some.injEq] at ht
      obtain ⟨f, h1, us, h2, rfl⟩ := ht
      simp only [Draw.term] at h1
      obtain ⟨h3, h4⟩ := given_tells (lat := lat) D (hm1 D (by simp [draws]))
      rcases hp : (((D.operands.drop D.numConsts).drop 1).map (Propagate.read iOps env)).mapM id with _ | ps
      · simp only [hp, reduceCtorEq] at h1
      rcases hc : chainCell env D.links (D.given lat) with _ | ⟨v, l⟩
      · simp only [hp, hc, reduceCtorEq] at h1
      simp only [hp, hc, Option.some.injEq] at h1
      obtain ⟨rfl, h5⟩ := chainCell_spec h _ _ (hr (.draw D) (by simp)) _ h3 h4 _ _ hc
      have hs' : addF f (sumF us) = some r := hs
      obtain ⟨x, y, rfl, h6, rfl⟩ := addF_some hs'
      obtain ⟨b, q, h7, rfl, rfl⟩ := addF_some h1
      obtain ⟨d', h8, h9, rfl⟩ := h5 q rfl
      obtain ⟨h10, rfl⟩ := hnext us h2 y h6
      have hb : D.base val = some b := by
        rw [Draw.base, ← tells_reads h _ ps hp]; exact h7
      refine ⟨?_, ?_⟩
      · intro E hE
        rw [draws_cons_draw, List.mem_cons] at hE
        rcases hE with rfl | hE
        · exact ⟨⟨b, hb⟩, by rw [h8.deriv]; exact h9⟩
        · exact h10 E hE
      · rw [draws_cons_draw, List.map_cons, List.sum_cons, Draw.logDensity, hb, h8.deriv]
        simp only [Option.getD_some]
        ring

end Verif.LogProb.Joint
