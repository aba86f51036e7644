import Verif.Matching.Rules
import Verif.Matching.Props

/-
C33: the rule combinators preserve meaning, `iterated` returns only normal forms, and it returns
when the rules decrease a measure.
-/

namespace Verif.Matching

/-- Elementwise relation of two lists of the same length. -/
def All2 (R : Expr → Expr → Prop) : List Expr → List Expr → Prop
  | [], [] => True
  | x :: xs, y :: ys => R x y ∧ All2 R xs ys
  | _, _ => False

/-- "Having the same meaning": an equivalence that is compatible with tuples and dictionaries. -/
structure Meaning (R : Expr → Expr → Prop) : Prop where
  refl : ∀ e, R e e
  trans : ∀ a b c, R a b → R b c → R a c
  seq : ∀ l l', All2 R l l' → R (.seq l) (.seq l')
  dict : ∀ ks l l', All2 R l l' → R (.dict ks l) (.dict ks l')

/-- The rule preserves meaning whenever it returns. -/
def Preserves (R : Expr → Expr → Prop) (r : Rule) : Prop := ∀ e e', r e = some e' → R e e'

/-- `s` is a subexpression of `e`. -/
inductive Sub : Expr → Expr → Prop
  | refl (e) : Sub e e
  | child (s c e) : Sub s c → c ∈ treeChildren e → Sub s e

/-- `n` applications of a rule. -/
def applyN (r : Rule) : Nat → Rule
  | 0, e => some e
  | n + 1, e => (r e).bind (applyN r n)

/-! ### Preservation -/

theorem ruleList_preserves {R : Expr → Expr → Prop} (hR : ∀ e, R e e) :
    ∀ rs : List Rule, (∀ r ∈ rs, Preserves R r) → Preserves R (ruleList rs)
  | [], _ => fun e e' h => by simp only [ruleList, Option.some.injEq] at h; exact h ▸ hR e
  | r :: rs, hrs => fun e e' h => by
    simp only [ruleList] at h
    rcases hr : r e with _ | x
    · rw [hr] at h; cases h
    · rw [hr] at h
      simp only [Option.bind_some] at h
      split at h
      · injection h with h; subst h
        exact hrs r (by simp) _ _ hr
      · exact ruleList_preserves hR rs (fun r h => hrs r (by simp [h])) _ _ h

theorem inOrder_preserves {R : Expr → Expr → Prop} (hR : ∀ e, R e e)
    (ht : ∀ a b c, R a b → R b c → R a c) :
    ∀ rs : List Rule, (∀ r ∈ rs, Preserves R r) → Preserves R (inOrder rs)
  | [], _ => fun e e' h => by simp only [inOrder, Option.some.injEq] at h; exact h ▸ hR e
  | r :: rs, hrs => fun e e' h => by
    simp only [inOrder] at h
    rcases hr : r e with _ | x
    · rw [hr] at h; cases h
    · rw [hr] at h
      exact ht _ _ _ (hrs r (by simp) _ _ hr)
        (inOrder_preserves hR ht rs (fun r h => hrs r (by simp [h])) _ _ h)

/-- `iterated` returns the result of some number of applications of the rule, on which one more
application changes nothing. -/
theorem iterated_spec (r : Rule) (e e' : Expr) (h : iterated r e = some e') :
    r e' = some e' ∧ ∃ n, applyN r n e = some e' := by
  revert e e'
  refine iterated.partial_correctness r (fun e e' => r e' = some e' ∧ ∃ n, applyN r n e = some e') ?_
  intro it ih e e' h
  rcases hr : r e with _ | x
  · rw [hr] at h; cases h
  · rw [hr] at h
    simp only [Option.bind_eq_bind, Option.bind_some] at h
    split at h
    · rename_i hx
      injection h with h; subst h; subst hx
      exact ⟨hr, 0, rfl⟩
    · obtain ⟨h1, n, h2⟩ := ih _ _ h
      exact ⟨h1, n + 1, by simp only [applyN, hr, Option.bind_some]; exact h2⟩

theorem applyN_preserves {R : Expr → Expr → Prop} (hR : ∀ e, R e e)
    (ht : ∀ a b c, R a b → R b c → R a c) {r : Rule} (hr : Preserves R r) :
    ∀ n, Preserves R (applyN r n)
  | 0 => fun e e' h => by simp only [applyN, Option.some.injEq] at h; exact h ▸ hR e
  | n + 1 => fun e e' h => by
    simp only [applyN] at h
    rcases hx : r e with _ | x
    · rw [hx] at h; cases h
    · rw [hx] at h
      exact ht _ _ _ (hr _ _ hx) (applyN_preserves hR ht hr n _ _ h)

theorem iterated_preserves {R : Expr → Expr → Prop} (hR : ∀ e, R e e)
    (ht : ∀ a b c, R a b → R b c → R a c) {r : Rule} (hr : Preserves R r) :
    Preserves R (iterated r) := by
  intro e e' h
  obtain ⟨_, n, hn⟩ := iterated_spec r e e' h
  exact applyN_preserves hR ht hr n _ _ hn

theorem mapRule_all2 {R : Expr → Expr → Prop} {f : Rule} :
    ∀ (l l' : List Expr), (∀ x ∈ l, ∀ x', f x = some x' → R x x') → mapRule f l = some l' → All2 R l l'
  | [], l', _, h => by simp only [mapRule, Option.some.injEq] at h; subst h; trivial
  | e :: es, l', hf, h => by
    simp only [mapRule] at h
    rcases he : f e with _ | x
    · rw [he] at h; cases h
    · rw [he] at h
      simp only [Option.bind_some] at h
      rcases hm : mapRule f es with _ | xs
      · rw [hm] at h; cases h
      · rw [hm] at h
        simp only [Option.bind_some, Option.some.injEq] at h
        subst h
        exact ⟨hf e (by simp) x he,
          mapRule_all2 es xs (fun x hx => hf x (by simp [hx])) hm⟩

theorem rewriteSub_preserves {R : Expr → Expr → Prop} (hR : Meaning R) {r : Rule} (hr : Preserves R r) :
    Preserves R (rewriteSub r) := by
  intro e e' h
  rcases e with a | l | ⟨ks, l⟩
  · simp only [rewriteSub, treeMap, Option.some.injEq] at h; subst h; exact hR.refl _
  · simp only [rewriteSub, treeMap] at h
    rcases hm : mapRule r l with _ | l'
    · rw [hm] at h; cases h
    · rw [hm] at h
      simp only [Option.bind_some, Option.some.injEq] at h
      subst h
      exact hR.seq _ _ (mapRule_all2 _ _ (fun x _ x' => hr x x') hm)
  · simp only [rewriteSub, treeMap] at h
    rcases hm : mapRule r l with _ | l'
    · rw [hm] at h; cases h
    · rw [hm] at h
      simp only [Option.bind_some, Option.some.injEq] at h
      subst h
      exact hR.dict _ _ _ (mapRule_all2 _ _ (fun x _ x' => hr x x') hm)

mutual
theorem bottomUp_preserves {R : Expr → Expr → Prop} (hR : Meaning R) {r : Rule} (hr : Preserves R r) :
    ∀ e e', bottomUp r e = some e' → R e e'
  | .atom a, e', h => by simp only [bottomUp] at h; exact hr _ _ h
  | .seq l, e', h => by
    simp only [bottomUp] at h
    rcases hm : bottomUpList r l with _ | l'
    · rw [hm] at h; cases h
    · rw [hm] at h
      exact hR.trans _ _ _ (hR.seq _ _ (bottomUpList_preserves hR hr l l' hm)) (hr _ _ h)
  | .dict ks l, e', h => by
    simp only [bottomUp] at h
    rcases hm : bottomUpList r l with _ | l'
    · rw [hm] at h; cases h
    · rw [hm] at h
      exact hR.trans _ _ _ (hR.dict _ _ _ (bottomUpList_preserves hR hr l l' hm)) (hr _ _ h)
theorem bottomUpList_preserves {R : Expr → Expr → Prop} (hR : Meaning R) {r : Rule}
    (hr : Preserves R r) : ∀ l l', bottomUpList r l = some l' → All2 R l l'
  | [], l', h => by simp only [bottomUpList, Option.some.injEq] at h; subst h; trivial
  | e :: es, l', h => by
    simp only [bottomUpList] at h
    rcases he : bottomUp r e with _ | x
    · rw [he] at h; cases h
    · rw [he] at h
      simp only [Option.bind_some] at h
      rcases hm : bottomUpList r es with _ | xs
      · rw [hm] at h; cases h
      · rw [hm] at h
        simp only [Option.bind_some, Option.some.injEq] at h
        subst h
        exact ⟨bottomUp_preserves hR hr e x he, bottomUpList_preserves hR hr es xs hm⟩
end

theorem topDown_preserves {R : Expr → Expr → Prop} (hR : Meaning R) {r : Rule} (hr : Preserves R r) :
    Preserves R (topDown r) := by
  intro e e' h
  refine topDown.partial_correctness r (fun e e' => R e e') (fun l l' => All2 R l l') ?_ ?_ e e' h
  · intro tdl ih e e' h
    rcases hx : r e with _ | x
    · rw [hx] at h; cases h
    · rw [hx] at h
      simp only [Option.bind_eq_bind, Option.bind_some] at h
      refine hR.trans _ _ _ (hr _ _ hx) ?_
      rcases x with a | l | ⟨ks, l⟩
      · simp only [Option.some.injEq] at h; subst h; exact hR.refl _
      · simp only at h
        rcases hm : tdl l with _ | l'
        · rw [hm] at h; cases h
        · rw [hm] at h
          simp only [Option.bind_some, Option.some.injEq] at h
          subst h
          exact hR.seq _ _ (ih _ _ hm)
      · simp only at h
        rcases hm : tdl l with _ | l'
        · rw [hm] at h; cases h
        · rw [hm] at h
          simp only [Option.bind_some, Option.some.injEq] at h
          subst h
          exact hR.dict _ _ _ (ih _ _ hm)
  · intro td tdl ih1 ih2 l l' h
    rcases l with _ | ⟨e, es⟩
    · simp only [Option.some.injEq] at h; subst h; trivial
    · simp only [Option.bind_eq_bind] at h
      rcases he : td e with _ | x
      · rw [he] at h; cases h
      · rw [he] at h
        simp only [Option.bind_some] at h
        rcases hm : tdl es with _ | xs
        · rw [hm] at h; cases h
        · rw [hm] at h
          simp only [Option.bind_some, Option.some.injEq] at h
          subst h
          exact ⟨ih1 _ _ he, ih2 _ _ hm⟩

/-- **C33, meaning.** If every rule preserves meaning, so does each combinator applied to them. -/
theorem combinators_preserve {R : Expr → Expr → Prop} (hR : Meaning R) (rs : List Rule)
    (h : ∀ r ∈ rs, Preserves R r) :
    Preserves R (ruleList rs) ∧ Preserves R (inOrder rs) ∧ Preserves R (termRewriter rs) ∧
    ∀ r ∈ rs, Preserves R (iterated r) ∧ Preserves R (rewriteSub r) ∧ Preserves R (bottomUp r) ∧
      Preserves R (topDown r) := by
  have hl := ruleList_preserves hR.refl rs h
  exact ⟨hl, inOrder_preserves hR.refl hR.trans rs h,
    iterated_preserves hR.refl hR.trans (bottomUp_preserves hR hl), fun r hr =>
    ⟨iterated_preserves hR.refl hR.trans (h r hr), rewriteSub_preserves hR (h r hr),
      bottomUp_preserves hR (h r hr), topDown_preserves hR (h r hr)⟩⟩

/-- **C33, normal form.** When the iterated rewriter returns, it returns after finitely many passes and
one more application of the rule changes nothing. -/
theorem iterated_normal (r : Rule) (e e' : Expr) (h : iterated r e = some e') :
    r e' = some e' ∧ iterated r e' = some e' ∧ ∃ n, applyN r n e = some e' := by
  obtain ⟨h1, h2⟩ := iterated_spec r e e' h
  exact ⟨h1, by rw [iterated]; simp [h1], h2⟩

/-! ### Choosing rules -/

/-- `rule_list` returns the result of the first rule that changes the expression, and the expression
itself exactly when no rule changes it. -/
theorem ruleList_spec : ∀ (rs : List Rule) (e e' : Expr), ruleList rs e = some e' →
    (e' = e ∧ ∀ r ∈ rs, r e = some e) ∨
    (e' ≠ e ∧ ∃ pre r post, rs = pre ++ r :: post ∧ (∀ q ∈ pre, q e = some e) ∧ r e = some e')
  | [], e, e', h => by simp only [ruleList, Option.some.injEq] at h; exact .inl ⟨h.symm, by simp⟩
  | r :: rs, e, e', h => by
    simp only [ruleList] at h
    rcases hr : r e with _ | x
    · rw [hr] at h; cases h
    · rw [hr] at h
      simp only [Option.bind_some] at h
      split at h
      · rename_i hne
        injection h with h; subst h
        exact .inr ⟨hne, [], r, rs, rfl, by simp, hr⟩
      · rename_i hne
        have hxe : x = e := Classical.byContradiction hne
        subst hxe
        rcases ruleList_spec rs _ _ h with ⟨h1, h2⟩ | ⟨h1, pre, r', post, h2, h3, h4⟩
        · exact .inl ⟨h1, by intro q hq; exact (List.mem_cons.mp hq).elim (fun h => h ▸ hr) (h2 q)⟩
        · refine .inr ⟨h1, r :: pre, r', post, by simp [h2], ?_, h4⟩
          intro q hq; exact (List.mem_cons.mp hq).elim (fun h => h ▸ hr) (h3 q)

/-! ### Termination -/

/-- The rule returns on every expression, and a change decreases the measure. -/
def Decreasing (μ : Expr → Nat) (r : Rule) : Prop := ∀ e, ∃ e', r e = some e' ∧ (e' = e ∨ μ e' < μ e)

/-- Decreasing some children and keeping the others decreases the measure. -/
structure Monotone (μ : Expr → Nat) : Prop where
  seq : ∀ l l', All2 (fun c c' => c' = c ∨ μ c' < μ c) l l' → l' = l ∨ μ (.seq l') < μ (.seq l)
  dict : ∀ ks l l', All2 (fun c c' => c' = c ∨ μ c' < μ c) l l' →
    l' = l ∨ μ (.dict ks l') < μ (.dict ks l)

theorem ruleList_decreasing {μ : Expr → Nat} :
    ∀ rs : List Rule, (∀ r ∈ rs, Decreasing μ r) → Decreasing μ (ruleList rs)
  | [], _, e => ⟨e, rfl, .inl rfl⟩
  | r :: rs, h, e => by
    obtain ⟨x, hx, hd⟩ := h r (by simp) e
    simp only [ruleList, hx, Option.bind_some]
    split
    · exact ⟨x, rfl, hd⟩
    · exact ruleList_decreasing rs (fun r hr => h r (by simp [hr])) e

theorem iterated_returns {μ : Expr → Nat} {r : Rule} (h : Decreasing μ r) (e : Expr) :
    ∃ e', iterated r e = some e' := by
  obtain ⟨x, hx, hd⟩ := h e
  rw [iterated]
  simp only [hx, Option.bind_eq_bind, Option.bind_some]
  split
  · exact ⟨x, rfl⟩
  · rename_i hne
    rcases hd with hd | hd
    · exact absurd hd.symm hne
    · exact iterated_returns h x
termination_by μ e

theorem decr_trans {μ : Expr → Nat} {a b c : Expr} (h : b = a ∨ μ b < μ a) (h' : c = b ∨ μ c < μ b) :
    c = a ∨ μ c < μ a := by
  rcases h with rfl | h
  · exact h'
  · rcases h' with rfl | h'
    · exact .inr h
    · exact .inr (Nat.lt_trans h' h)

mutual
theorem bottomUp_decreasing {μ : Expr → Nat} (hm : Monotone μ) {r : Rule} (h : Decreasing μ r) :
    ∀ e, ∃ e', bottomUp r e = some e' ∧ (e' = e ∨ μ e' < μ e)
  | .atom a => by simp only [bottomUp]; exact h _
  | .seq l => by
    obtain ⟨l', h1, h2⟩ := bottomUpList_decreasing hm h l
    obtain ⟨x, h3, h4⟩ := h (.seq l')
    refine ⟨x, by simp only [bottomUp, h1, Option.bind_some]; exact h3, decr_trans ?_ h4⟩
    exact (hm.seq l l' h2).imp_left (fun h => by rw [h])
  | .dict ks l => by
    obtain ⟨l', h1, h2⟩ := bottomUpList_decreasing hm h l
    obtain ⟨x, h3, h4⟩ := h (.dict ks l')
    refine ⟨x, by simp only [bottomUp, h1, Option.bind_some]; exact h3, decr_trans ?_ h4⟩
    exact (hm.dict ks l l' h2).imp_left (fun h => by rw [h])
theorem bottomUpList_decreasing {μ : Expr → Nat} (hm : Monotone μ) {r : Rule} (h : Decreasing μ r) :
    ∀ l, ∃ l', bottomUpList r l = some l' ∧ All2 (fun c c' => c' = c ∨ μ c' < μ c) l l'
  | [] => ⟨[], by simp only [bottomUpList], trivial⟩
  | e :: es => by
    obtain ⟨x, h1, h2⟩ := bottomUp_decreasing hm h e
    obtain ⟨xs, h3, h4⟩ := bottomUpList_decreasing hm h es
    exact ⟨x :: xs, by simp only [bottomUpList, h1, h3, Option.bind_some], h2, h4⟩
end

/-- **C33, termination.** If the rules decrease a measure, `iterated` and `term_rewriter` always
return. -/
theorem rewriting_returns {μ : Expr → Nat} (hm : Monotone μ) (rs : List Rule)
    (h : ∀ r ∈ rs, Decreasing μ r) (e : Expr) :
    (∃ e', termRewriter rs e = some e') ∧ ∀ r ∈ rs, ∃ e', iterated r e = some e' :=
  ⟨iterated_returns (bottomUp_decreasing hm (ruleList_decreasing rs h)) e,
    fun r hr => iterated_returns (h r hr) e⟩

/-- If a bottom-up pass changes nothing, the rule changes no subexpression. -/
theorem bottomUp_fixed {μ : Expr → Nat} (hm : Monotone μ) {r : Rule} (h : Decreasing μ r) :
    ∀ e, bottomUp r e = some e → r e = some e ∧ ∀ c ∈ treeChildren e, bottomUp r c = some c := by
  have antisym : ∀ a b : Expr, (b = a ∨ μ b < μ a) → (a = b ∨ μ a < μ b) → b = a := by
    intro a b h1 h2
    rcases h1 with h1 | h1
    · exact h1
    · rcases h2 with h2 | h2
      · exact h2.symm
      · omega
  have children : ∀ l, bottomUpList r l = some l → ∀ c ∈ l, bottomUp r c = some c := by
    intro l
    rw [bottomUpList_eq]
    induction l with
    | nil => intro _ c hc; simp at hc
    | cons x xs ih =>
      intro hl c hc
      simp only [mapRule] at hl
      rcases hx : bottomUp r x with _ | y
      · rw [hx] at hl; cases hl
      · rw [hx] at hl
        simp only [Option.bind_some] at hl
        rcases hxs : mapRule (bottomUp r) xs with _ | ys
        · rw [hxs] at hl; cases hl
        · rw [hxs] at hl
          simp only [Option.bind_some, Option.some.injEq, List.cons.injEq] at hl
          rcases List.mem_cons.mp hc with rfl | hc
          · rw [hx, hl.1]
          · exact ih (by rw [hxs, hl.2]) c hc
  intro e he
  rcases e with a | l | ⟨ks, l⟩
  · simp only [bottomUp] at he
    exact ⟨he, by simp [treeChildren]⟩
  · obtain ⟨l', h1, h2⟩ := bottomUpList_decreasing hm h l
    simp only [bottomUp, h1, Option.bind_some] at he
    obtain ⟨x, hx, hd⟩ := h (.seq l')
    rw [hx] at he
    injection he with he
    subst he
    have := antisym (.seq l) (.seq l') ((hm.seq l l' h2).imp_left (fun h => by rw [h])) hd
    injection this with this
    subst this
    exact ⟨hx, children _ h1⟩
  · obtain ⟨l', h1, h2⟩ := bottomUpList_decreasing hm h l
    simp only [bottomUp, h1, Option.bind_some] at he
    obtain ⟨x, hx, hd⟩ := h (.dict ks l')
    rw [hx] at he
    injection he with he
    subst he
    have := antisym (.dict ks l) (.dict ks l') ((hm.dict ks l l' h2).imp_left (fun h => by rw [h])) hd
    injection this with _ this
    subst this
    exact ⟨hx, children _ h1⟩

/-- **C33, normal form everywhere.** With rules that decrease a measure, no rule changes any
subexpression of what `term_rewriter` returns. -/
theorem term_rewriter_normal {μ : Expr → Nat} (hm : Monotone μ) (rs : List Rule)
    (h : ∀ r ∈ rs, Decreasing μ r) (e e' : Expr) (he : termRewriter rs e = some e') (s : Expr)
    (hs : Sub s e') : ∀ r ∈ rs, r s = some s := by
  have hd := ruleList_decreasing rs h
  have hfix := (iterated_normal _ e e' he).1
  have key : ∀ s t, Sub s t → bottomUp (ruleList rs) t = some t → ruleList rs s = some s := by
    intro s t hst
    induction hst with
    | refl => intro h; exact (bottomUp_fixed hm hd _ h).1
    | child c e _ hc ih => intro h; exact ih ((bottomUp_fixed hm hd e h).2 c hc)
  rcases ruleList_spec rs s s (key s e' hs hfix) with h | h
  · exact h.2
  · exact absurd rfl h.1

/-- A rule made from a pattern leaves an expression that it does not match unchanged, and otherwise
applies the handler to bindings that match. -/
theorem makeRule_spec {p : Pat} (hp : Regular p) (handler : Bind → Option Expr) (e : Expr)
    (he : hashable e = true) :
    ((¬ ∃ σ, Subst σ p e) ∧ makeRule p handler e = some e) ∨
    ∃ b, Subst b p e ∧ makeRule p handler e = handler b := by
  unfold makeRule
  rw [if_pos he]
  rcases hm : match' p e with _ | b
  · exact .inl ⟨(match_error_iff_partial hp e).mp hm, rfl⟩
  · exact .inr ⟨b, (match_sound_partial hp hm).1, rfl⟩

/-- **Finding.** A rule made by `make_rule` raises on every dictionary (it cannot be hashed), so
`bottom_up` and `term_rewriter` of such a rule fail on every expression with a dictionary in it,
although `tree_map` supports dictionaries. -/
theorem makeRule_dict_raises (p : Pat) (handler : Bind → Option Expr) (ks : List Nat) (l : List Expr) :
    makeRule p handler (.dict ks l) = none ∧ bottomUp (makeRule p handler) (.dict ks l) = none ∧
    topDown (makeRule p handler) (.dict ks l) = none ∧
    termRewriter [makeRule p handler] (.dict ks l) = none := by
  have h : ∀ l, makeRule p handler (.dict ks l) = none := fun l => by simp [makeRule, hashable]
  refine ⟨h l, ?_, ?_, ?_⟩
  · simp only [bottomUp]
    rcases bottomUpList (makeRule p handler) l with _ | l' <;> simp [h]
  · rw [topDown_eq]; simp [h]
  · rw [termRewriter, iterated, bottomUp]
    rcases bottomUpList (ruleList [makeRule p handler]) l with _ | l' <;> simp [h, ruleList]

/-! ### Concrete cases -/

mutual
/-- The sum of the numbers: a measure. -/
def total : Expr → Nat
  | .atom a => a
  | .seq l => totalAll l
  | .dict _ l => totalAll l
/-- The measure of a list. -/
def totalAll : List Expr → Nat
  | [] => 0
  | e :: es => total e + totalAll es
end

theorem total_monotone : Monotone total := by
  have key : ∀ l l', All2 (fun c c' => c' = c ∨ total c' < total c) l l' →
      l' = l ∨ totalAll l' < totalAll l := by
    intro l
    induction l with
    | nil => intro l' h; rcases l' with _ | ⟨y, ys⟩ <;> first | exact .inl rfl | exact h.elim
    | cons x xs ih =>
      intro l' h
      rcases l' with _ | ⟨y, ys⟩
      · exact h.elim
      · obtain ⟨h1, h2⟩ := h
        simp only [totalAll]
        rcases h1 with rfl | h1
        · rcases ih ys h2 with rfl | h
          · exact .inl rfl
          · exact .inr (by omega)
        · rcases ih ys h2 with rfl | h <;> exact .inr (by omega)
  exact ⟨fun l l' h => by simp only [total]; exact key l l' h,
    fun ks l l' h => by simp only [total]; exact key l l' h⟩

/-- The rule of the documentation (rules.py:241-243): decrement a positive number. -/
def decRule : Rule := fun e => match e with | .atom (n + 1) => some (.atom n) | e => some e

theorem decRule_decreasing : Decreasing total decRule := by
  intro e
  rcases e with (_ | n) | l | ⟨ks, l⟩
  · exact ⟨_, rfl, .inl rfl⟩
  · exact ⟨.atom n, rfl, .inr (by simp [total])⟩
  · exact ⟨_, rfl, .inl rfl⟩
  · exact ⟨_, rfl, .inl rfl⟩

example : ∃ e', termRewriter [decRule] (.seq [.atom 2, .atom 3]) = some e' ∧
    ∀ s, Sub s e' → decRule s = some s := by
  obtain ⟨e', h⟩ := (rewriting_returns total_monotone [decRule]
    (by simpa using decRule_decreasing) (.seq [.atom 2, .atom 3])).1
  exact ⟨e', h, fun s hs => term_rewriter_normal total_monotone [decRule]
    (by simpa using decRule_decreasing) _ e' h s hs decRule (by simp)⟩

/-- The parity of the sum of the numbers is a meaning in the sense above. -/
theorem parity_meaning : Meaning (fun e e' => total e % 2 = total e' % 2) := by
  have key : ∀ l l', All2 (fun e e' => total e % 2 = total e' % 2) l l' →
      totalAll l % 2 = totalAll l' % 2 := by
    intro l
    induction l with
    | nil => intro l' h; rcases l' with _ | ⟨y, ys⟩ <;> first | rfl | exact h.elim
    | cons x xs ih =>
      intro l' h
      rcases l' with _ | ⟨y, ys⟩
      · exact h.elim
      · have h1 := h.1
        have h2 := ih ys h.2
        simp only [totalAll]
        omega
  exact ⟨fun _ => rfl, fun _ _ _ h h' => h.trans h', fun l l' h => by simp only [total]; exact key l l' h,
    fun ks l l' h => by simp only [total]; exact key l l' h⟩

/-- Decrement a number by two: preserves the parity of the sum. -/
def dec2Rule : Rule := fun e => match e with | .atom (n + 2) => some (.atom n) | e => some e

example : ∀ r ∈ [dec2Rule], Preserves (fun e e' => total e % 2 = total e' % 2) r := by
  intro r hr e e' h
  rw [List.mem_singleton.mp hr] at h
  rcases e with (_ | _ | n) | l | ⟨ks, l⟩
  · simp only [dec2Rule, Option.some.injEq] at h; rw [h]
  · simp only [dec2Rule, Option.some.injEq] at h; rw [h]
  · simp only [dec2Rule, Option.some.injEq] at h; rw [← h]; simp only [total]; omega
  · simp only [dec2Rule, Option.some.injEq] at h; rw [h]
  · simp only [dec2Rule, Option.some.injEq] at h; rw [h]

/-- Without a measure a result of `term_rewriter` may contain subexpressions to which a rule still
applies: here the rule turns `1` into `2` and `(2,)` into `(1,)`, and `(1,)` is returned. -/
def undoRule : Rule := fun e =>
  if e = .atom 1 then some (.atom 2) else if e = .seq [.atom 2] then some (.seq [.atom 1]) else some e

theorem normal_form_needs_measure : termRewriter [undoRule] (.seq [.atom 1]) = some (.seq [.atom 1]) ∧
    undoRule (.atom 1) = some (.atom 2) := by
  refine ⟨?_, by rfl⟩
  rw [termRewriter, iterated]
  rfl

end Verif.Matching
