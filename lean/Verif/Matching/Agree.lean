import Verif.Matching.Wf

/-
Possible matches are substitutions.
-/

namespace Verif.Matching

/-- The values collected so far under a name. -/
def prevVals : Option Expr → List Expr
  | some (.seq l) => l
  | _ => []

theorem appendValue_eq (o : Option Expr) (x : Expr) : appendValue o x = .seq (prevVals o ++ [x]) := by
  rcases o with _ | (a | l | ⟨k, l⟩) <;> simp [appendValue, prevVals]

section acc
variable {R : Expr → Bind → Bind → Prop} {P : Bind → Expr → Prop} {acc : List Name}
  {D S : Name → Prop}

/-- The bindings with which the body of a `Star` is matched. -/
def BodyOk (D : Name → Prop) (acc : List Name) (b : Bind) : Prop :=
  (∀ n, D n ∧ n ∉ acc → b n ≠ none) ∧ ∀ n ∈ acc, b n = none

theorem bodyOk_erase {b : Bind} (h : ∀ n, D n → n ∉ acc → b n ≠ none) : BodyOk D acc (b.erase acc) := by
  refine ⟨fun n hn => ?_, fun n hn => ?_⟩
  · unfold Bind.erase; rw [if_neg hn.2]; exact h n hn.1 hn.2
  · unfold Bind.erase; rw [if_pos hn]

theorem merge_keep {b m : Bind} {n : Name} (hm : (b.erase acc).le m) (h : b n ≠ none) (hn : n ∉ acc) :
    mergeAcc acc b m n ≠ none := by
  rw [mergeAcc_off hn hm]
  rcases hb : b n with _ | x
  · exact absurd hb h
  · rw [hm n x (by unfold Bind.erase; rw [if_neg hn, hb])]; simp

theorem acc_sound (hext : ∀ e b m, (∀ n ∈ acc, b n = none) → R e b m → Ext S b m)
    (hIH : ∀ e b m τ, BodyOk D acc b → R e b m → m.le τ → P τ e)
    (hsure : ∀ e b m, BodyOk D acc b → R e b m → ∀ n ∈ acc, m n ≠ none) (σ : Bind) :
    ∀ (seg : List Expr) (b m : Bind), AccRel R acc seg b m →
      (∀ n, n ∉ acc → ∀ e, m n = some e → σ n = some e) → (∀ n, D n → n ∉ acc → b n ≠ none) →
      ∃ σs : List Bind, σs.length = seg.length ∧ (∀ τ ∈ σs, ∀ n, n ∉ acc → τ n = σ n) ∧
        (∀ q ∈ σs.zip seg, P q.1 q.2) ∧
        ∀ n ∈ acc, ∃ vs : List Expr, σs.map (fun τ => τ n) = vs.map some ∧
          (seg = [] → m n = b n) ∧ (seg ≠ [] → m n = some (.seq (prevVals (b n) ++ vs)))
  | [], b, m, h, hm, hD => by
    simp only [AccRel] at h
    refine ⟨[], rfl, by simp, by simp, fun n hn => ⟨[], rfl, fun _ => by rw [h], fun h => absurd rfl h⟩⟩
  | e :: es, b, m, h, hm, hD => by
    simp only [AccRel] at h
    obtain ⟨m', h1, h2⟩ := h
    have hbo := bodyOk_erase (acc := acc) hD
    have he := hext _ _ _ hbo.2 h1
    obtain ⟨σs, hl, hoff, hP, hon⟩ := acc_sound hext hIH hsure σ es _ _ h2 hm
      (fun n hn hna => merge_keep he.1 (hD n hn hna) hna)
    have hrest := (accRel_ext hext _ _ _ h2).1
    refine ⟨(fun n => if n ∈ acc then m' n else σ n) :: σs, by simp [hl], ?_, ?_, ?_⟩
    · intro τ hτ n hn
      rcases List.mem_cons.mp hτ with rfl | hτ
      · simp [hn]
      · exact hoff τ hτ n hn
    · intro q hq
      rw [List.zip_cons_cons] at hq
      rcases List.mem_cons.mp hq with rfl | hq
      · refine hIH _ _ _ _ hbo h1 ?_
        intro n x hx
        by_cases hn : n ∈ acc
        · simp [hn, hx]
        · simp only [hn, if_false]
          refine hm n hn x (hrest n hn x ?_)
          rw [mergeAcc_off hn he.1, hx]
      · exact hP q hq
    · intro n hn
      obtain ⟨vs, hvs, h0, h1'⟩ := hon n hn
      rcases hx : m' n with _ | x
      · exact absurd hx (hsure _ _ _ hbo h1 n hn)
      · refine ⟨x :: vs, by simp [hn, hx, hvs], by simp, fun _ => ?_⟩
        have hme := mergeAcc_on (b := b) hn hx
        by_cases hes : es = []
        · subst hes
          have hσ : σs = [] := List.length_eq_zero_iff.mp (by simpa using hl)
          subst hσ
          have hv : vs = [] := by simpa using hvs.symm
          subst hv
          rw [h0 rfl, hme, appendValue_eq]
        · rw [h1' hes, hme, appendValue_eq]
          simp [prevVals]

theorem acc_complete (hext : ∀ e b m, (∀ n ∈ acc, b n = none) → R e b m → Ext S b m)
    (hIH : ∀ e b τ, BodyOk D acc b → b.le τ → P τ e → ∃ m, R e b m ∧ m.le τ)
    (hsure : ∀ e b m, BodyOk D acc b → R e b m → ∀ n ∈ acc, m n ≠ none) (σ : Bind) :
    ∀ (seg : List Expr) (b : Bind) (σs : List Bind), σs.length = seg.length →
      (∀ τ ∈ σs, ∀ n, n ∉ acc → τ n = σ n) → (∀ q ∈ σs.zip seg, P q.1 q.2) →
      (∀ n, n ∉ acc → ∀ e, b n = some e → σ n = some e) → (∀ n, D n → n ∉ acc → b n ≠ none) →
      ∃ m, AccRel R acc seg b m ∧ (∀ n, n ∉ acc → ∀ e, m n = some e → σ n = some e) ∧
        ∀ n ∈ acc, ∃ vs : List Expr, σs.map (fun τ => τ n) = vs.map some ∧
          (seg = [] → m n = b n) ∧ (seg ≠ [] → m n = some (.seq (prevVals (b n) ++ vs)))
  | [], b, σs, hl, hoff, hP, hb, hD => by
    have hσ : σs = [] := List.length_eq_zero_iff.mp (by simpa using hl)
    subst hσ
    exact ⟨b, rfl, hb, fun n _ => ⟨[], rfl, fun _ => rfl, fun h => absurd rfl h⟩⟩
  | e :: es, b, [], hl, hoff, hP, hb, hD => by simp at hl
  | e :: es, b, τ :: σs, hl, hoff, hP, hb, hD => by
    have hbo := bodyOk_erase (acc := acc) hD
    have hτ := hoff τ List.mem_cons_self
    obtain ⟨m', h1, hle⟩ := hIH e (b.erase acc) τ hbo (erase_le_of hb hτ) (hP (τ, e) (by simp))
    have he := hext _ _ _ hbo.2 h1
    obtain ⟨m, h2, hmo, hon⟩ := acc_complete hext hIH hsure σ es (mergeAcc acc b m') σs
      (by simpa using hl) (fun τ h => hoff τ (List.mem_cons_of_mem _ h))
      (fun q hq => hP q (by rw [List.zip_cons_cons]; exact List.mem_cons_of_mem _ hq))
      (fun n hn x hx => by
        rw [mergeAcc_off hn he.1] at hx
        rw [← hτ n hn]; exact hle n x hx)
      (fun n hn hna => merge_keep he.1 (hD n hn hna) hna)
    refine ⟨m, by simp only [AccRel]; exact ⟨m', h1, h2⟩, hmo, ?_⟩
    intro n hn
    obtain ⟨vs, hvs, h0, h1'⟩ := hon n hn
    rcases hx : m' n with _ | x
    · exact absurd hx (hsure _ _ _ hbo h1 n hn)
    · have hτx : τ n = some x := hle n x hx
      refine ⟨x :: vs, by simp [hτx, hvs], by simp, fun _ => ?_⟩
      have hme := mergeAcc_on (b := b) hn hx
      by_cases hes : es = []
      · subst hes
        have hσ : σs = [] := List.length_eq_zero_iff.mp (by simpa using hl)
        subst hσ
        have hv : vs = [] := by simpa using hvs.symm
        subst hv
        rw [h0 rfl, hme, appendValue_eq]
      · rw [h1' hes, hme, appendValue_eq]
        simp [prevVals]

end acc

/-- The claim for one pattern. -/
def AgreeP (D : Name → Prop) (p : Pat) : Prop :=
  ∀ e b σ, (∀ n, D n → b n ≠ none) → (∀ n, fresh p n → b n = none) → b.le σ →
    ((∃ b', Poss p e b b' ∧ b'.le σ) ↔ Subst σ p e)

theorem AgreeP.self {D : Name → Prop} {p : Pat} (hw : WF D p) (h : AgreeP D p) {e : Expr} {b m : Bind}
    (hD : ∀ n, D n → b n ≠ none) (hf : ∀ n, fresh p n → b n = none) (hp : Poss p e b m) :
    Subst m p e :=
  (h e b m hD hf (Poss.ext p e b m D hw hf hp).1).mp ⟨m, hp, m.le_refl⟩

mutual
theorem agree_P : ∀ (p : Pat) (D : Name → Prop), WF D p → AgreeP D p
  | .atom a, D, hw => by
    intro e b σ hD hf hb
    simp only [Poss, Subst]
    exact ⟨fun ⟨b', h, _⟩ => h.1, fun h => ⟨b, ⟨h, rfl⟩, hb⟩⟩
  | .var name ok, D, hw => by
    intro e b σ hD hf hb
    simp only [Poss, Subst]
    constructor
    · rintro ⟨b', ⟨hok, ⟨rfl, rfl⟩ | ⟨n, rfl, ⟨hn, rfl⟩ | ⟨hn, rfl⟩⟩⟩, hle⟩
      · exact ⟨hok, by simp⟩
      · refine ⟨hok, fun m hm => ?_⟩
        injection hm with hm; subst hm
        exact hle n e (by simp [Bind.set])
      · refine ⟨hok, fun m hm => ?_⟩
        injection hm with hm; subst hm
        exact hle n e hn
    · rintro ⟨hok, h⟩
      rcases name with _ | n
      · exact ⟨b, ⟨hok, .inl ⟨rfl, rfl⟩⟩, hb⟩
      · have hσ := h n rfl
        rcases hn : b n with _ | x
        · refine ⟨b.set n e, ⟨hok, .inr ⟨n, rfl, .inl ⟨hn, rfl⟩⟩⟩, ?_⟩
          intro m y hy
          unfold Bind.set at hy
          split at hy
          · rename_i hm; rw [hm, hσ]; exact hy
          · exact hb m y hy
        · have := hb n x hn
          rw [hσ] at this
          injection this with this
          exact ⟨b, ⟨hok, .inr ⟨n, rfl, .inr ⟨by rw [hn, this], rfl⟩⟩⟩, hb⟩
  | .not p, D, hw => by
    intro e b σ hD hf hb
    simp only [WF] at hw
    have hf' : ∀ n, fresh p n → b n = none := fun n h => hf n (by simp only [fresh]; exact h)
    have ih := agree_P p D hw.2 e b σ hD hf' hb
    simp only [Poss, Subst]
    have hex : (∃ m, Poss p e b m) ↔ Subst σ p e := by
      rw [← ih]
      constructor
      · rintro ⟨m, hm⟩
        refine ⟨m, hm, ?_⟩
        have he := Poss.ext p e b m D hw.2 hf' hm
        intro n x hx
        rcases hbn : b n with _ | y
        · exfalso
          rcases he.2 n (by rw [hx]; simp) with h' | h'
          · exact h' hbn
          · exact hD n (hw.1 n h') hbn
        · have := he.1 n y hbn
          rw [hx] at this
          injection this with this
          exact hb n x (by rw [hbn, this])
      · rintro ⟨m, hm, _⟩; exact ⟨m, hm⟩
    rw [hex]
    exact ⟨fun ⟨b', h, _⟩ => h.1, fun h => ⟨b, ⟨h, rfl⟩, hb⟩⟩
  | .choice name ps, D, hw => by
    intro e b σ hD hf hb
    simp only [WF] at hw
    simp only [fresh] at hf
    simp only [Poss, Subst]
    rcases name with _ | n
    · rw [agree_Ps ps D hw.2 e b σ hD (fun n h => hf n (.inr h)) hb]
      simp
    · have h1 := ext_set (e := e) (hf n (.inl rfl))
      have hD' : ∀ m, D m → (b.set n e) m ≠ none := fun m hm => ext_some h1 (hD m hm)
      have hf' : ∀ m, freshPs ps m → (b.set n e) m = none := fun m hm =>
        ext_none h1 (hf m (.inr hm)) (fun h => hw.1 m h (fresh_namesPs ps m hm))
      have hn : (b.set n e) n = some e := by simp [Bind.set]
      constructor
      · rintro ⟨b', h, hle⟩
        have h2 := Bind.le_trans (PossAny.ext ps e _ b' D hw.2 hf' h).1 hle
        refine ⟨fun m hm => ?_, (agree_Ps ps D hw.2 e _ σ hD' hf' h2).mp ⟨b', h, hle⟩⟩
        injection hm with hm; subst hm
        exact h2 _ _ hn
      · rintro ⟨hσ, h⟩
        have h2 : (b.set n e).le σ := by
          intro m y hy
          unfold Bind.set at hy
          split at hy
          · rename_i hm; rw [hm, hσ n rfl]; exact hy
          · exact hb m y hy
        exact (agree_Ps ps D hw.2 e _ σ hD' hf' h2).mpr h
  | .seq es, D, hw => by
    intro e b σ hD hf hb
    simp only [WF] at hw
    have hf' : ∀ n, freshEs es n → b n = none := fun n h => hf n (by simp only [fresh]; exact h)
    simp only [Poss, Subst]
    constructor
    · rintro ⟨b', ⟨l, he, h⟩, hle⟩
      exact ⟨l, he, (agree_Es es D hw l b σ hD hf' hb).mp ⟨b', h, hle⟩⟩
    · rintro ⟨l, he, h⟩
      obtain ⟨b', h, hle⟩ := (agree_Es es D hw l b σ hD hf' hb).mpr h
      exact ⟨b', ⟨l, he, h⟩, hle⟩
  | .dict keys es, D, hw => by
    intro e b σ hD hf hb
    simp only [WF] at hw
    have hf' : ∀ n, freshEs es n → b n = none := fun n h => hf n (by simp only [fresh]; exact h)
    simp only [Poss, Subst]
    constructor
    · rintro ⟨b', ⟨l, he, h⟩, hle⟩
      exact ⟨l, he, (agree_Es es D hw l b σ hD hf' hb).mp ⟨b', h, hle⟩⟩
    · rintro ⟨l, he, h⟩
      obtain ⟨b', h, hle⟩ := (agree_Es es D hw l b σ hD hf' hb).mpr h
      exact ⟨b', ⟨l, he, h⟩, hle⟩
theorem agree_Ps : ∀ (p : Pats) (D : Name → Prop), WFPs D p →
    ∀ e b σ, (∀ n, D n → b n ≠ none) → (∀ n, freshPs p n → b n = none) → Bind.le b σ →
    ((∃ b', PossAny p e b b' ∧ Bind.le b' σ) ↔ SubstAny σ p e)
  | .nil, D, hw => by
    intro e b σ hD hf hb
    simp [PossAny, SubstAny]
  | .cons p ps, D, hw => by
    intro e b σ hD hf hb
    simp only [WFPs] at hw
    simp only [PossAny, SubstAny]
    rw [← agree_P p D hw.1 e b σ hD (fun n h => hf n (by simp only [freshPs]; exact .inl h)) hb,
      ← agree_Ps ps D hw.2 e b σ hD (fun n h => hf n (by simp only [freshPs]; exact .inr h)) hb]
    constructor
    · rintro ⟨b', h | h, hle⟩
      · exact .inl ⟨b', h, hle⟩
      · exact .inr ⟨b', h, hle⟩
    · rintro (⟨b', h, hle⟩ | ⟨b', h, hle⟩)
      · exact ⟨b', .inl h, hle⟩
      · exact ⟨b', .inr h, hle⟩
theorem agree_Es : ∀ (p : Elems) (D : Name → Prop), WFEs D p →
    ∀ l b σ, (∀ n, D n → b n ≠ none) → (∀ n, freshEs p n → b n = none) → Bind.le b σ →
    ((∃ b', PossEs p l b b' ∧ Bind.le b' σ) ↔ SubstEs σ p l)
  | .nil, D, hw => by
    intro l b σ hD hf hb
    simp only [PossEs, SubstEs]
    exact ⟨fun ⟨b', h, _⟩ => h.1, fun h => ⟨b, ⟨h, rfl⟩, hb⟩⟩
  | .one p es, D, hw => by
    intro l b σ hD hf hb
    simp only [WFEs] at hw
    have hfp : ∀ n, fresh p n → b n = none := fun n h => hf n (by simp only [freshEs]; exact .inl h)
    have ihp := agree_P p D hw.1
    have next : ∀ x m, Poss p x b m →
        (∀ n, (D n ∨ sure p n) → m n ≠ none) ∧ (∀ n, freshEs es n → m n = none) := by
      intro x m hm
      have he := Poss.ext p x b m D hw.1 hfp hm
      refine ⟨fun n hn => ?_, fun n hn => ?_⟩
      · rcases hn with hn | hn
        · exact ext_some he (hD n hn)
        · exact Subst.sure p m x n (AgreeP.self hw.1 ihp hD hfp hm) hn
      · exact ext_none he (hf n (by simp only [freshEs]; exact .inr hn))
          (fun h => hw.2.2 n h hn)
    simp only [PossEs, SubstEs]
    constructor
    · rintro ⟨b', ⟨x, xs, m, hl, h1, h2⟩, hle⟩
      have hmb := (PossEs.ext es xs m b' _ hw.2.1 (next x m h1).2 h2).1
      have hmσ := Bind.le_trans hmb hle
      exact ⟨x, xs, hl, (ihp x b σ hD hfp hb).mp ⟨m, h1, hmσ⟩,
        (agree_Es es _ hw.2.1 xs m σ (next x m h1).1 (next x m h1).2 hmσ).mp ⟨b', h2, hle⟩⟩
    · rintro ⟨x, xs, hl, h1, h2⟩
      obtain ⟨m, hm, hmσ⟩ := (ihp x b σ hD hfp hb).mpr h1
      obtain ⟨b', h3, hle⟩ :=
        (agree_Es es _ hw.2.1 xs m σ (next x m hm).1 (next x m hm).2 hmσ).mpr h2
      exact ⟨b', ⟨x, xs, m, hl, hm, h3⟩, hle⟩
  | .star p name acc greedy plus es, D, hw => by
    intro l b σ hD hf hb
    simp only [WFEs] at hw
    obtain ⟨hwp, hwe, hdis, hname, hsure, hfracc⟩ := hw
    have hfe : ∀ n, freshEs es n → b n = none := fun n h => hf n (by simp only [freshEs]; exact .inr h)
    have hacc : ∀ n ∈ acc, b n = none :=
      fun n h => hf n (by simp only [freshEs]; exact .inl (.inr (.inl h)))
    have ihp := agree_P p _ hwp
    have ihe := agree_Es es _ hwe
    have hext : ∀ e b m, (∀ n ∈ acc, b n = none) → Poss p e b m → Ext (names p) b m :=
      fun e b m hb h => Poss.ext p e b m _ hwp (fun n hn => hb n (hfracc n hn)) h
    have hfr : ∀ b : Bind, BodyOk D acc b → ∀ n, fresh p n → b n = none :=
      fun b hb n hn => hb.2 n (hfracc n hn)
    have hsu : ∀ e b m, BodyOk D acc b → Poss p e b m → ∀ n ∈ acc, m n ≠ none :=
      fun e b m hbo hp n hn =>
        Subst.sure p m e n (AgreeP.self hwp ihp hbo.1 (hfr b hbo) hp) (hsure n hn)
    rcases hnb : name.bind b with _ | v
    · -- the name is not bound
      have next : ∀ seg m, AccRel (fun e b m => Poss p e b m) acc seg b m →
          Ext (fun n => names p n ∨ name = some n ∨ n ∈ acc) b (starBind name b m seg) ∧
          (∀ n, (D n ∨ name = some n) → starBind name b m seg n ≠ none) ∧
          (∀ n, freshEs es n → starBind name b m seg n = none) := by
        intro seg m hm
        have he := starBind_ext (acc := acc) (seg := seg) hnb
          (accRel_ext hext _ _ _ hm).2
        refine ⟨he, fun n hn => ?_, fun n hn => ?_⟩
        · rcases hn with hn | hn
          · exact ext_some he (hD n hn)
          · simp [starBind, hn]
        · exact ext_none he (hfe n hn) (fun h => hdis n h hn)
      simp only [PossEs, SubstEs, hnb, reduceCtorEq, false_and, exists_false, false_or, true_and]
      constructor
      · rintro ⟨b', ⟨seg, rest, m, hl, hpl, hm, h2⟩, hle⟩
        obtain ⟨he, hd, hfn⟩ := next seg m hm
        have hb1 := Bind.le_trans (PossEs.ext es rest _ b' _ hwe hfn h2).1 hle
        have hmo : ∀ n, m n ≠ none → name ≠ some n → ∀ e, m n = some e → σ n = some e := by
          intro n _ hnn e hme
          rcases hbn : b n with _ | y
          · exact hb1 n e (by simp [starBind, hnn, hbn, hme])
          · by_cases hna : n ∈ acc
            · rw [hacc n hna] at hbn; cases hbn
            · have := (accRel_ext hext _ _ _ hm).1 n hna y hbn
              rw [hme] at this
              injection this with this
              exact hb n e (by rw [hbn, this])
        have hmname : ∀ n, name = some n → m n = none := by
          intro n hn
          rcases hmn : m n with _ | y
          · rfl
          · rcases (accRel_ext hext _ _ _ hm).2 n (by rw [hmn]; simp) with h | h
            · rw [hn] at hnb; exact absurd hnb h
            · exact absurd h (hname n hn).1
        have hmoff : ∀ n, n ∉ acc → ∀ e, m n = some e → σ n = some e := by
          intro n hna e hme
          by_cases hnn : name = some n
          · rw [hmname n hnn] at hme; cases hme
          · exact hmo n (by rw [hme]; simp) hnn e hme
        obtain ⟨σs, hlen, hoff, hP, hon⟩ := acc_sound (P := fun τ e => Subst τ p e) hext
          (fun e b m τ hbo hp hle =>
            (ihp e b τ hbo.1 (hfr b hbo) (Bind.le_trans (hext e b m hbo.2 hp).1 hle)).mp ⟨m, hp, hle⟩)
          hsu σ seg b m hm hmoff (fun n h _ => hD n h)
        refine ⟨seg, rest, hl, hpl, ?_, ⟨σs, hlen, ⟨hoff, ?_⟩, hP⟩,
          (ihe rest _ σ hd hfn hb1).mp ⟨b', h2, hle⟩⟩
        · intro n hn
          exact hb1 n _ (by simp [starBind, hn])
        · intro hne n hn
          obtain ⟨vs, hvs, _, h1⟩ := hon n hn
          refine ⟨vs, ?_, hvs⟩
          have hseg : seg ≠ [] := by
            intro h0; rw [h0] at hlen; exact hne (List.length_eq_zero_iff.mp hlen)
          have hmn := h1 hseg
          rw [hacc n hn] at hmn
          simp only [prevVals, List.nil_append] at hmn
          exact hmo n (by rw [hmn]; simp) (fun h => (hname n h).2 hn) _ hmn
      · rintro ⟨seg, rest, hl, hpl, hσn, ⟨σs, hlen, hcol, hP⟩, h2⟩
        obtain ⟨m, hm, hmo, hon⟩ := acc_complete (P := fun τ e => Subst τ p e) hext
          (fun e b τ hbo hle hs => (ihp e b τ hbo.1 (hfr b hbo) hle).mpr hs)
          hsu σ seg b σs hlen hcol.1 hP (fun n _ e h => hb n e h) (fun n h _ => hD n h)
        obtain ⟨he, hd, hfn⟩ := next seg m hm
        have hb1 : Bind.le (starBind name b m seg) σ := by
          intro n e hne
          unfold starBind at hne
          split at hne
          · rename_i hn; rw [hσn n hn]; exact hne
          · rcases hbn : b n with _ | y
            · rw [hbn] at hne
              simp only at hne
              by_cases hna : n ∈ acc
              · obtain ⟨vs, hvs, h0, h1⟩ := hon n hna
                by_cases hseg : seg = []
                · rw [h0 hseg, hbn] at hne; cases hne
                · have hσne : σs ≠ [] := by
                    intro h0; rw [h0] at hlen
                    exact hseg (List.length_eq_zero_iff.mp hlen.symm)
                  obtain ⟨vs', hσ, hvs'⟩ := hcol.2 hσne n hna
                  have hvv : vs = vs' := by
                    have := hvs.symm.trans hvs'
                    exact (List.map_inj_right (fun _ _ h => Option.some.inj h)).mp this
                  rw [h1 hseg, hbn] at hne
                  simp only [prevVals, List.nil_append] at hne
                  rw [hσ, ← hvv]; exact hne
              · exact hmo n hna e hne
            · rw [hbn] at hne
              simp only at hne
              exact hb n e (by rw [hbn]; exact hne)
        obtain ⟨b', h3, hle⟩ := (ihe rest _ σ hd hfn hb1).mpr h2
        exact ⟨b', ⟨seg, rest, m, hl, hpl, hm, h3⟩, hle⟩
    · -- the name is bound: a segment
      obtain ⟨n0, rfl, hv⟩ : ∃ n0, name = some n0 ∧ b n0 = some v := by
        rcases name with _ | n0
        · simp at hnb
        · exact ⟨n0, rfl, by simpa using hnb⟩
      have hseg : IsSegment p plus := by
        refine Classical.byContradiction fun hns => ?_
        have := hf n0 (by simp only [freshEs]; exact .inl (.inr (.inr ⟨trivial, hns⟩)))
        rw [hv] at this; cases this
      obtain ⟨rfl, ok, rfl, hok⟩ := hseg
      have hd : ∀ n, (D n ∨ some n0 = some n) → b n ≠ none := by
        rintro n (hn | hn)
        · exact hD n hn
        · injection hn with hn; subst hn; rw [hv]; simp
      have hae : ∀ n, n ∉ acc := fun n hn => by
        have := hsure n hn; simp [sure] at this
      simp only [PossEs, SubstEs, Option.bind_some, hv, reduceCtorEq, false_and, or_false]
      constructor
      · rintro ⟨b', ⟨s, rest, hs, hl, h2⟩, hle⟩
        injection hs with hs
        refine ⟨s, rest, hl, by simp, ?_, ⟨List.replicate s.length σ, by simp, ⟨?_, ?_⟩, ?_⟩,
          (ihe rest b σ hd hfe hb).mp ⟨b', h2, hle⟩⟩
        · intro n hn
          injection hn with hn; subst hn
          exact hb _ _ (by rw [hv, hs])
        · intro τ hτ n _
          rw [List.eq_of_mem_replicate hτ]
        · intro _ n hn; exact absurd hn (hae n)
        · intro q _
          simp only [Subst]
          exact ⟨hok _, by simp⟩
      · rintro ⟨seg, rest, hl, _, hσn, _, h2⟩
        have h1 := hσn n0 rfl
        have h3 := hb n0 v hv
        rw [h1] at h3
        injection h3 with h3
        obtain ⟨b', h4, hle⟩ := (ihe rest b σ hd hfe hb).mpr h2
        exact ⟨b', ⟨seg, rest, by rw [h3], hl, h4⟩, hle⟩
end

end Verif.Matching
