import Verif.Matching.Rel

/-
The class of patterns for which the matcher agrees with substitution, and the agreement.
-/

namespace Verif.Matching

mutual
/-- The names occurring in a pattern. -/
def names : Pat → Name → Prop
  | .atom _, _ => False
  | .var name _, n => name = some n
  | .not p, n => names p n
  | .choice name ps, n => name = some n ∨ namesPs ps n
  | .seq es, n => namesEs es n
  | .dict _ es, n => namesEs es n
/-- The names occurring in alternatives. -/
def namesPs : Pats → Name → Prop
  | .nil, _ => False
  | .cons p ps, n => names p n ∨ namesPs ps n
/-- The names occurring in elements. -/
def namesEs : Elems → Name → Prop
  | .nil, _ => False
  | .one p es, n => names p n ∨ namesEs es n
  | .star p name acc _ _ es, n => (names p n ∨ name = some n ∨ n ∈ acc) ∨ namesEs es n
end

/-- A `Segment` (matcher.py:576-601) that may be empty: any element is allowed. -/
def IsSegment (p : Pat) (plus : Bool) : Prop :=
  plus = false ∧ ∃ ok : Expr → Bool, p = .var none ok ∧ ∀ e, ok e = true

mutual
/-- The names that must not be bound when the pattern is reached: accumulated names, names of
`Choice`s, and names of `Star`s other than `Segment`s. -/
def fresh : Pat → Name → Prop
  | .atom _, _ => False
  | .var _ _, _ => False
  | .not p, n => fresh p n
  | .choice name ps, n => name = some n ∨ freshPs ps n
  | .seq es, n => freshEs es n
  | .dict _ es, n => freshEs es n
/-- As `fresh`. -/
def freshPs : Pats → Name → Prop
  | .nil, _ => False
  | .cons p ps, n => fresh p n ∨ freshPs ps n
/-- As `fresh`. -/
def freshEs : Elems → Name → Prop
  | .nil, _ => False
  | .one p es, n => fresh p n ∨ freshEs es n
  | .star p name acc _ plus es, n =>
    (fresh p n ∨ n ∈ acc ∨ (name = some n ∧ ¬ IsSegment p plus)) ∨ freshEs es n
end

mutual
/-- Names that are bound by every match of the pattern. -/
def sure : Pat → Name → Prop
  | .atom _, _ => False
  | .var name _, n => name = some n
  | .not _, _ => False
  | .choice name _, n => name = some n
  | .seq es, n => sureEs es n
  | .dict _ es, n => sureEs es n
/-- As `sure`. -/
def sureEs : Elems → Name → Prop
  | .nil, _ => False
  | .one p es, n => sure p n ∨ sureEs es n
  | .star p name _ _ plus es, n => (name = some n ∨ (plus = true ∧ sure p n)) ∨ sureEs es n
end

mutual
/-- The patterns for which matching is substitution, where the names in `D` are known to be bound:
* the name of a `Choice` does not occur in its alternatives;
* the names in a `Not` are bound before it;
* in a sequence the names that must be fresh for a later element do not occur earlier;
* the name of a `Star` does not occur in its body, the accumulated names of a `Star` are bound by each
  match of its body, and the fresh names of the body are accumulated. -/
def WF : (Name → Prop) → Pat → Prop
  | _, .atom _ => True
  | _, .var _ _ => True
  | D, .not p => (∀ n, names p n → D n) ∧ WF D p
  | D, .choice name ps => (∀ n, name = some n → ¬ namesPs ps n) ∧ WFPs D ps
  | D, .seq es => WFEs D es
  | D, .dict _ es => WFEs D es
/-- As `WF`. -/
def WFPs : (Name → Prop) → Pats → Prop
  | _, .nil => True
  | D, .cons p ps => WF D p ∧ WFPs D ps
/-- As `WF`. -/
def WFEs : (Name → Prop) → Elems → Prop
  | _, .nil => True
  | D, .one p es => WF D p ∧ WFEs (fun n => D n ∨ sure p n) es ∧ ∀ n, names p n → ¬ freshEs es n
  | D, .star p name acc _ _ es =>
    WF (fun n => D n ∧ n ∉ acc) p ∧ WFEs (fun n => D n ∨ name = some n) es ∧
    (∀ n, names p n ∨ name = some n ∨ n ∈ acc → ¬ freshEs es n) ∧
    (∀ n, name = some n → ¬ names p n ∧ n ∉ acc) ∧ (∀ n ∈ acc, sure p n) ∧ ∀ n, fresh p n → n ∈ acc
end

theorem Bind.le_refl (b : Bind) : b.le b := fun _ _ h => h
theorem Bind.le_trans {a b c : Bind} (h : a.le b) (h' : b.le c) : a.le c := fun n e hn => h' n e (h n e hn)

theorem Bind.le_set {b : Bind} {n : Name} {e : Expr} (h : b n = none) : b.le (b.set n e) := by
  intro m x hm
  unfold Bind.set
  split
  · rename_i hmn; subst hmn; rw [h] at hm; cases hm
  · exact hm

/-- `m` extends `b`, with new names only in `S`. -/
def Ext (S : Name → Prop) (b m : Bind) : Prop :=
  b.le m ∧ ∀ n, m n ≠ none → b n ≠ none ∨ S n

theorem Ext.mono {S T : Name → Prop} {b m : Bind} (h : Ext S b m) (hST : ∀ n, S n → T n) : Ext T b m :=
  ⟨h.1, fun n hn => (h.2 n hn).imp_right (hST n)⟩

theorem Ext.refl (S : Name → Prop) (b : Bind) : Ext S b b := ⟨b.le_refl, fun _ h => .inl h⟩

theorem Ext.trans {S : Name → Prop} {a b c : Bind} (h : Ext S a b) (h' : Ext S b c) : Ext S a c :=
  ⟨Bind.le_trans h.1 h'.1, fun n hn => (h'.2 n hn).elim (h.2 n) .inr⟩

mutual
theorem fresh_names : ∀ (p : Pat) (n : Name), fresh p n → names p n
  | .atom _, _, h => by simp [fresh] at h
  | .var _ _, _, h => by simp [fresh] at h
  | .not p, n, h => by simp only [fresh, names] at h ⊢; exact fresh_names p n h
  | .choice _ ps, n, h => by simp only [fresh, names] at h ⊢; exact h.imp_right (fresh_namesPs ps n)
  | .seq es, n, h => by simp only [fresh, names] at h ⊢; exact fresh_namesEs es n h
  | .dict _ es, n, h => by simp only [fresh, names] at h ⊢; exact fresh_namesEs es n h
theorem fresh_namesPs : ∀ (p : Pats) (n : Name), freshPs p n → namesPs p n
  | .nil, _, h => by simp [freshPs] at h
  | .cons p ps, n, h => by
    simp only [freshPs, namesPs] at h ⊢
    exact h.imp (fresh_names p n) (fresh_namesPs ps n)
theorem fresh_namesEs : ∀ (p : Elems) (n : Name), freshEs p n → namesEs p n
  | .nil, _, h => by simp [freshEs] at h
  | .one p ps, n, h => by
    simp only [freshEs, namesEs] at h ⊢
    exact h.imp (fresh_names p n) (fresh_namesEs ps n)
  | .star p name acc _ plus es, n, h => by
    simp only [freshEs, namesEs] at h ⊢
    refine h.imp ?_ (fresh_namesEs es n)
    rintro (h | h | h)
    · exact .inl (fresh_names p n h)
    · exact .inr (.inr h)
    · exact .inr (.inl h.1)
end

mutual
theorem sure_names : ∀ (p : Pat) (n : Name), sure p n → names p n
  | .atom _, _, h => by simp [sure] at h
  | .var _ _, _, h => by simpa [sure, names] using h
  | .not p, n, h => by simp [sure] at h
  | .choice _ ps, n, h => by simp only [sure, names] at h ⊢; exact .inl h
  | .seq es, n, h => by simp only [sure, names] at h ⊢; exact sure_namesEs es n h
  | .dict _ es, n, h => by simp only [sure, names] at h ⊢; exact sure_namesEs es n h
theorem sure_namesEs : ∀ (p : Elems) (n : Name), sureEs p n → namesEs p n
  | .nil, _, h => by simp [sureEs] at h
  | .one p ps, n, h => by
    simp only [sureEs, namesEs] at h ⊢
    exact h.imp (sure_names p n) (sure_namesEs ps n)
  | .star p name acc _ plus es, n, h => by
    simp only [sureEs, namesEs] at h ⊢
    refine h.imp ?_ (sure_namesEs es n)
    rintro (h | h)
    · exact .inr (.inl h)
    · exact .inl (sure_names p n h.2)
end

mutual
/-- A matching substitution binds the sure names. -/
theorem Subst.sure : ∀ (p : Pat) (σ : Bind) (e : Expr) (n : Name), Subst σ p e → sure p n → σ n ≠ none
  | .atom _, _, _, _, _, h => by simp [Matching.sure] at h
  | .var _ _, σ, e, n, hs, h => by
    simp only [Subst, Matching.sure] at hs h; rw [hs.2 n h]; simp
  | .not p, _, _, n, _, h => by simp [Matching.sure] at h
  | .choice _ ps, σ, e, n, hs, h => by
    simp only [Subst, Matching.sure] at hs h; rw [hs.1 n h]; simp
  | .seq es, σ, e, n, hs, h => by
    simp only [Subst, Matching.sure] at hs h
    obtain ⟨l, _, hs⟩ := hs
    exact SubstEs.sure es σ l n hs h
  | .dict _ es, σ, e, n, hs, h => by
    simp only [Subst, Matching.sure] at hs h
    obtain ⟨l, _, hs⟩ := hs
    exact SubstEs.sure es σ l n hs h
theorem SubstEs.sure : ∀ (p : Elems) (σ : Bind) (l : List Expr) (n : Name),
    SubstEs σ p l → sureEs p n → σ n ≠ none
  | .nil, _, _, _, _, h => by simp [sureEs] at h
  | .one p ps, σ, l, n, hs, h => by
    simp only [sureEs, SubstEs] at h hs
    obtain ⟨x, xs, _, h1, h2⟩ := hs
    exact h.elim (Subst.sure p σ x n h1) (SubstEs.sure ps σ xs n h2)
  | .star p name acc _ plus es, σ, l, n, hs, h => by
    simp only [sureEs, SubstEs] at h hs
    obtain ⟨seg, rest, _, hpl, hn, ⟨σs, hlen, hc, hp⟩, hr⟩ := hs
    rcases h with (h | ⟨hpt, h⟩) | h
    · rw [hn n h]; simp
    · have hne := hpl hpt
      have hsn : σs ≠ [] := by
        intro h0; rw [h0] at hlen; exact hne (List.length_eq_zero_iff.mp hlen.symm)
      by_cases hacc : n ∈ acc
      · obtain ⟨vs, hv, _⟩ := hc.2 hsn n hacc
        rw [hv]; simp
      · rcases σs with _ | ⟨τ, σs⟩
        · exact absurd rfl hsn
        · rcases seg with _ | ⟨x, seg⟩
          · exact absurd rfl hne
          · have := Subst.sure p τ x n (hp (τ, x) (by simp)) h
            rwa [hc.1 τ (by simp) n hacc] at this
    · exact SubstEs.sure es σ rest n hr h
end

theorem erase_le_of {b σ τ : Bind} {acc : List Name} (h : ∀ n, n ∉ acc → ∀ e, b n = some e → σ n = some e)
    (hτ : ∀ n, n ∉ acc → τ n = σ n) : (b.erase acc).le τ := by
  intro n e hn
  unfold Bind.erase at hn
  split at hn
  · cases hn
  · rename_i hacc
    rw [hτ n hacc]; exact h n hacc e hn

theorem mergeAcc_off {acc : List Name} {b m : Bind} {n : Name} (h : n ∉ acc)
    (hm : (b.erase acc).le m) : mergeAcc acc b m n = m n := by
  unfold mergeAcc
  rcases hmn : m n with _ | w
  · simp only
    rcases hb : b n with _ | x
    · rfl
    · have := hm n x (by unfold Bind.erase; rw [if_neg h, hb])
      rw [this] at hmn; cases hmn
  · simp [h]

theorem mergeAcc_on {acc : List Name} {b m : Bind} {n : Name} {w : Expr} (h : n ∈ acc)
    (hm : m n = some w) : mergeAcc acc b m n = some (appendValue (b n) w) := by
  unfold mergeAcc
  rw [hm]; simp [h]

/-- The loop of a `Star` keeps the bindings outside the accumulated names. -/
theorem accRel_ext {R : Expr → Bind → Bind → Prop} {acc : List Name} {S : Name → Prop}
    (hR : ∀ e b m, (∀ n ∈ acc, b n = none) → R e b m → Ext S b m) :
    ∀ (l : List Expr) (b m : Bind), AccRel R acc l b m →
      (∀ n, n ∉ acc → ∀ e, b n = some e → m n = some e) ∧
      (∀ n, m n ≠ none → b n ≠ none ∨ S n)
  | [], b, m, h => by
    simp only [AccRel] at h; subst h
    exact ⟨fun n _ e h => h, fun n h => .inl h⟩
  | e :: es, b, m, h => by
    simp only [AccRel] at h
    obtain ⟨m', h1, h2⟩ := h
    have he := hR _ _ _ (fun n hn => by unfold Bind.erase; rw [if_pos hn]) h1
    obtain ⟨h3, h4⟩ := accRel_ext hR es _ _ h2
    constructor
    · intro n hn x hx
      apply h3 n hn
      rw [mergeAcc_off hn he.1]
      exact he.1 n x (by unfold Bind.erase; rw [if_neg hn, hx])
    · intro n hn
      rcases h4 n hn with h | h
      · unfold mergeAcc at h
        rcases hm : m' n with _ | w
        · rw [hm] at h; exact .inl h
        · rcases he.2 n (by rw [hm]; simp) with h' | h'
          · left
            unfold Bind.erase at h'
            split at h'
            · exact absurd rfl h'
            · exact h'
          · exact .inr h'
      · exact .inr h

theorem starBind_ext {S : Name → Prop} {acc : List Name} {name : Option Name} {b m : Bind}
    {seg : List Expr} (hn : name.bind b = none) (hm : ∀ n, m n ≠ none → b n ≠ none ∨ S n) :
    Ext (fun n => S n ∨ name = some n ∨ n ∈ acc) b (starBind name b m seg) := by
  constructor
  · intro n e h
    unfold starBind
    split
    · rename_i h'; rw [h'] at hn; simp only [Option.bind_some] at hn; rw [hn] at h; cases h
    · rw [h]
  · intro n h
    unfold starBind at h
    split at h
    · rename_i h'; exact .inr (.inr (.inl h'))
    · rcases hb : b n with _ | w
      · rw [hb] at h
        rcases hm n h with h' | h'
        · exact absurd hb h'
        · exact .inr (.inl h')
      · left; simp

theorem ext_none {S : Name → Prop} {b m : Bind} (h : Ext S b m) {n : Name} (hb : b n = none) (hS : ¬ S n) :
    m n = none := by
  rcases hm : m n with _ | x
  · rfl
  · rcases h.2 n (by rw [hm]; simp) with h' | h'
    · exact absurd hb h'
    · exact absurd h' hS

theorem ext_some {S : Name → Prop} {b m : Bind} (h : Ext S b m) {n : Name} (hb : b n ≠ none) :
    m n ≠ none := by
  rcases hx : b n with _ | x
  · exact absurd hx hb
  · rw [h.1 n x hx]; simp

theorem ext_set {b : Bind} {n : Name} {e : Expr} (hb : b n = none) :
    Ext (fun m => some n = some m) b (b.set n e) := by
  refine ⟨Bind.le_set hb, fun m hm => ?_⟩
  unfold Bind.set at hm
  split at hm
  · rename_i h; right; rw [h]
  · exact .inl hm

mutual
/-- A possible match extends the bindings by names of the pattern. -/
theorem Poss.ext : ∀ (p : Pat) (e : Expr) (b b' : Bind) (D : Name → Prop), WF D p →
    (∀ n, fresh p n → b n = none) → Poss p e b b' → Ext (names p) b b'
  | .atom _, e, b, b', D, _, _, h => by
    simp only [Poss] at h; rw [h.2]; exact Ext.refl _ _
  | .var name ok, e, b, b', D, _, _, h => by
    simp only [Poss] at h
    rcases h with ⟨_, ⟨_, rfl⟩ | ⟨n, hn, ⟨hb, rfl⟩ | ⟨_, rfl⟩⟩⟩
    · exact Ext.refl _ _
    · exact (ext_set hb).mono (fun m hm => by simp only [names]; rw [hn, hm])
    · exact Ext.refl _ _
  | .not p, e, b, b', D, _, _, h => by
    simp only [Poss] at h; rw [h.2]; exact Ext.refl _ _
  | .choice name ps, e, b, b', D, hw, hf, h => by
    simp only [WF] at hw
    simp only [fresh] at hf
    simp only [Poss] at h
    rcases name with _ | n
    · exact (PossAny.ext ps e b b' D hw.2 (fun n hn => hf n (.inr hn)) h).mono
        (fun n hn => by simp only [names]; exact .inr hn)
    · have h1 := ext_set (e := e) (hf n (.inl rfl))
      have h2 := PossAny.ext ps e (b.set n e) b' D hw.2
        (fun m hm => ext_none h1 (hf m (.inr hm))
          (fun h => hw.1 m h (fresh_namesPs ps m hm))) h
      exact (h1.mono (fun m hm => by simp only [names]; exact .inl hm)).trans
        (h2.mono (fun m hm => by simp only [names]; exact .inr hm))
  | .seq es, e, b, b', D, hw, hf, h => by
    simp only [WF, Poss, fresh] at hw h hf
    obtain ⟨l, _, h⟩ := h
    exact (PossEs.ext es l b b' D hw hf h).mono (fun n hn => by simp only [names]; exact hn)
  | .dict _ es, e, b, b', D, hw, hf, h => by
    simp only [WF, Poss, fresh] at hw h hf
    obtain ⟨l, _, h⟩ := h
    exact (PossEs.ext es l b b' D hw hf h).mono (fun n hn => by simp only [names]; exact hn)
theorem PossAny.ext : ∀ (p : Pats) (e : Expr) (b b' : Bind) (D : Name → Prop), WFPs D p →
    (∀ n, freshPs p n → b n = none) → PossAny p e b b' → Ext (namesPs p) b b'
  | .nil, _, _, _, _, _, _, h => by simp [PossAny] at h
  | .cons p ps, e, b, b', D, hw, hf, h => by
    simp only [PossAny, WFPs, freshPs] at h hw hf
    rcases h with h | h
    · exact (Poss.ext p e b b' D hw.1 (fun n hn => hf n (.inl hn)) h).mono
        (fun n hn => by simp only [namesPs]; exact .inl hn)
    · exact (PossAny.ext ps e b b' D hw.2 (fun n hn => hf n (.inr hn)) h).mono
        (fun n hn => by simp only [namesPs]; exact .inr hn)
theorem PossEs.ext : ∀ (p : Elems) (l : List Expr) (b b' : Bind) (D : Name → Prop), WFEs D p →
    (∀ n, freshEs p n → b n = none) → PossEs p l b b' → Ext (namesEs p) b b'
  | .nil, _, _, _, _, _, _, h => by
    simp only [PossEs] at h; rw [h.2]; exact Ext.refl _ _
  | .one p es, l, b, b', D, hw, hf, h => by
    simp only [PossEs, WFEs, freshEs] at h hw hf
    obtain ⟨x, xs, m, _, h1, h2⟩ := h
    have e1 := Poss.ext p x b m _ hw.1 (fun n hn => hf n (.inl hn)) h1
    have e2 := PossEs.ext es xs m b' _ hw.2.1
      (fun n hn => ext_none e1 (hf n (.inr hn)) (fun h => hw.2.2 n h hn)) h2
    exact (e1.mono (fun n hn => by simp only [namesEs]; exact .inl hn)).trans
      (e2.mono (fun n hn => by simp only [namesEs]; exact .inr hn))
  | .star p name acc _ plus es, l, b, b', D, hw, hf, h => by
    simp only [PossEs, WFEs, freshEs] at h hw hf
    rcases h with ⟨s, rest, _, _, h⟩ | ⟨hn, seg, rest, m, _, _, hacc, h⟩
    · exact (PossEs.ext es rest b b' _ hw.2.1 (fun n hn => hf n (.inr hn)) h).mono
        (fun n hn => by simp only [namesEs]; exact .inr hn)
    · have h1 := (accRel_ext (fun e b m hb h =>
        Poss.ext p e b m _ hw.1 (fun n hn => hb n (hw.2.2.2.2.2 n hn)) h) _ _ _ hacc).2
      have e1 := starBind_ext (acc := acc) (seg := seg) hn h1
      have e2 := PossEs.ext es rest _ b' _ hw.2.1
        (fun n hn => ext_none e1 (hf n (.inr hn)) (fun h => hw.2.2.1 n h hn)) h
      exact (e1.mono (fun n hn => by simp only [namesEs]; exact .inl hn)).trans
        (e2.mono (fun n hn => by simp only [namesEs]; exact .inr hn))
end

end Verif.Matching
