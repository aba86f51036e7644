import Verif.Autoconj.ComposeLemmas

/-
C35: fusing an einsum into the einsum that uses it preserves the value.
-/

namespace Verif.Autoconj

variable {R : Type} [CommSemiring R]

/-- C35.  If an einsum is an operand of another one, and `compose_einsums` returns a formula, then the single
einsum with that formula, applied to the left operands, the child's operands and the right operands,
is defined and is the same array: same shape and same entries, for all formulas, operands and sizes. -/
theorem compose_einsums_value {parent child f : Formula} {left cargs right : List (Arr R)} {c v : Arr R}
    (hc : einsum child cargs = some c) (hv : einsum parent (left ++ c :: right) = some v)
    (h : compose parent left.length child = some f) :
    einsum f (left ++ cargs ++ right) = some v := by
  obtain ⟨dc, hcs, hcn, hco, rfl⟩ := einsum_some hc
  obtain ⟨dp, hps, hpn, hpo, rfl⟩ := einsum_some hv
  obtain ⟨L, old, Rr, ρp, ρc, hsplit, hL, hr, hinj, rfl⟩ := compose_spec h hcn
  rw [hsplit] at hps hpo
  simp only [List.map_append, List.map_cons] at hps
  have hlens : (left.map Arr.shape).length = (L.map (·.map dp)).length := by simp [hL]
  obtain ⟨hps1, hps2⟩ := List.append_inj hps hlens
  simp only [List.cons.injEq] at hps2
  obtain ⟨hold, hps3⟩ := hps2
  have hold : child.out.map dc = old.map dp := hold
  -- the sizes of the new names
  classical
  let dn : Letter → ℕ := fun m =>
    if h : ∃ l ∈ (L ++ old :: Rr).flatten, ρp l = m then dp h.choose
    else if h : ∃ l ∈ child.ins.flatten, ρc l = m then dc h.choose else 0
  have hdp : ∀ l ∈ (L ++ old :: Rr).flatten, dn (ρp l) = dp l := by
    intro l hl
    have h : ∃ x ∈ (L ++ old :: Rr).flatten, ρp x = ρp l := ⟨l, hl, rfl⟩
    simp only [dn]
    rw [dif_pos h, hr.injp _ h.choose_spec.1 _ hl h.choose_spec.2]
  have hdc : ∀ l ∈ child.ins.flatten, dn (ρc l) = dc l := by
    intro l hl
    by_cases hlc : l ∈ child.out
    · obtain ⟨q, hq, h1, h2⟩ := pin_child child.out old hr.link hlc
      have e : pin child.out (old.map dp) l = dc l := by
        rw [← hold]; unfold pin; rw [lookup_zip_map dc l _ hlc]; rfl
      rw [h1, hdp q (by simp only [List.flatten_append, List.flatten_cons, List.mem_append]
                        exact Or.inr (Or.inl hq)), ← h2 dp, e]
    · have hn : ¬ ∃ x ∈ (L ++ old :: Rr).flatten, ρp x = ρc l :=
        fun ⟨x, hx, e⟩ => hr.fresh l hl hlc x hx e.symm
      have h : ∃ x ∈ child.ins.flatten, ρc x = ρc l := ⟨l, hl, rfl⟩
      simp only [dn]
      rw [dif_neg hn, dif_pos h, ← hr.injc l hl hlc _ h.choose_spec.1 h.choose_spec.2.symm]
  have renamed : ∀ (x : List (List Letter)) (ρ : Letter → Letter) (d : Letter → ℕ),
      (∀ l ∈ x.flatten, dn (ρ l) = d l) → x.map (·.map d) = (x.map (·.map ρ)).map (·.map dn) := by
    intro x ρ d hd
    rw [List.map_map]
    apply List.map_congr_left
    intro s hs
    simp only [Function.comp_def, List.map_map]
    apply List.map_congr_left
    intro l hl
    exact (hd l (List.mem_flatten.2 ⟨s, hs, hl⟩)).symm
  have hfit : (left ++ cargs ++ right).map Arr.shape =
      (L.map (·.map ρp) ++ child.ins.map (·.map ρc) ++ Rr.map (·.map ρp)).map (·.map dn) := by
    simp only [List.map_append]
    rw [hps1, hcs, hps3, renamed L ρp dp, renamed child.ins ρc dc hdc, renamed Rr ρp dp]
    · intro l hl
      exact hdp l (by simp only [List.flatten_append, List.flatten_cons, List.mem_append]
                      exact Or.inr (Or.inr hl))
    · intro l hl
      exact hdp l (by simp only [List.flatten_append, List.flatten_cons, List.mem_append]
                      exact Or.inl hl)
  have houtmap : (parent.out.map ρp).map dn = parent.out.map dp := by
    rw [List.map_map]
    exact List.map_congr_left fun l hl => hdp l (hpo l hl)
  have key := einsum_fits (f := ⟨L.map (·.map ρp) ++ child.ins.map (·.map ρc) ++ Rr.map (·.map ρp),
    parent.out.map ρp⟩) dn hfit ?_ ?_
  · rw [key]
    congr 1
    refine mkArr_congr houtmap ?_
    intro o ho
    have ho : InBox o (parent.out.map dp) := by rw [← houtmap]; exact ho
    have := compose_val (R := R) hr hpo hco (la := left) (ca := cargs) (ra := right)
      (by simp [hL]) (by simpa using congrArg List.length hcs.symm) hold hdp hdc o ho
    rw [← this]
    obtain ⟨ins, out⟩ := parent
    simp only at hsplit
    rw [hsplit]
  · refine (List.nodup_map_iff_inj_on hpn).2 ?_
    intro a ha b hb e
    exact hinj a (List.mem_append_left _ ha) b (List.mem_append_left _ hb) e
  · intro m hm
    obtain ⟨l, hl, rfl⟩ := List.mem_map.1 hm
    have hl := hpo l hl
    have e : ∀ (x : List (List Letter)) (ρ : Letter → Letter),
        (x.map (·.map ρ)).flatten = x.flatten.map ρ := by intro x ρ; simp [List.map_flatten]
    simp only [List.flatten_append, List.flatten_cons, List.mem_append, e] at hl ⊢
    rcases hl with hl | hl | hl
    · exact Or.inl (Or.inl (List.mem_map_of_mem hl))
    · obtain ⟨c, hc, ec⟩ := old_child hr.link hl
      rw [← ec]
      exact Or.inl (Or.inr (List.mem_map_of_mem (hco c hc)))
    · exact Or.inr (List.mem_map_of_mem hl)

/-- C35.  `compose_einsums` returns a formula whenever the nested einsums have a value and need at most 52
index names together. -/
theorem compose_einsums_returns {parent child : Formula} {left cargs right : List (Arr R)} {c v : Arr R}
    (hc : einsum child cargs = some c) (hv : einsum parent (left ++ c :: right) = some v)
    (h52 : (parent.ins.flatten ++ parent.out).toFinset.card +
      (child.ins.flatten.filter (· ∉ child.out)).toFinset.card ≤ 52) :
    ∃ f, compose parent left.length child = some f ∧ einsum f (left ++ cargs ++ right) = some v := by
  obtain ⟨dc, hcs, hcn, hco, rfl⟩ := einsum_some hc
  obtain ⟨dp, hps, hpn, hpo, hv'⟩ := einsum_some hv
  have hlen : left.length < parent.ins.length := by
    have := congrArg List.length hps
    simp at this; omega
  have hg : (parent.ins.map (·.map dp))[left.length]? = some (child.out.map dc) := by
    rw [← hps]; simp [mkArr]
  rw [List.getElem?_map, List.getElem?_eq_getElem hlen, Option.map_some, Option.some.injEq] at hg
  obtain ⟨f, hf⟩ := compose_returns (List.getElem?_eq_getElem hlen)
    (by have := congrArg List.length hg; simpa using this.symm) h52
  exact ⟨f, hf, compose_einsums_value hc hv hf⟩

/-- The child's output must have as many names as the parent expects, otherwise `compose_einsums` raises
(einsum.py:206-209). -/
theorem compose_mismatch {parent child : Formula} {n : ℕ} {old : List Letter}
    (ho : parent.ins[n]? = some old) (h : child.out.length ≠ old.length) : compose parent n child = none := by
  unfold compose
  rw [ho]
  exact if_neg h

/-! ### Formula strings -/

theorem splitComma_ne {ts : List Tok} {ps : List (List Letter)} (h : splitComma ts = some ps) : ps ≠ [] := by
  cases ts with
  | nil => simp only [splitComma, Option.some.injEq] at h; subst h; simp
  | cons t ts =>
    cases t with
    | letter l =>
      simp only [splitComma] at h
      split at h
      · injection h with h; subst h; simp
      · cases h
    | comma =>
      simp only [splitComma] at h
      rcases hs : splitComma ts with _ | ps'
      · rw [hs] at h; cases h
      · rw [hs] at h; simp only [Option.bind_some, Option.some.injEq] at h; subst h; simp
    | arrow => simp [splitComma] at h

theorem splitComma_letters (s : List Letter) (ts : List Tok) (p : List Letter) (ps : List (List Letter))
    (h : splitComma ts = some (p :: ps)) : splitComma (s.map .letter ++ ts) = some ((s ++ p) :: ps) := by
  induction s with
  | nil => exact h
  | cons l s ih => simp only [List.map_cons, List.cons_append, splitComma, ih]

theorem splitComma_join : ∀ ins : List (List Letter), ins ≠ [] → splitComma (joinComma ins) = some ins
  | [], h => absurd rfl h
  | [s], _ => by
    have := splitComma_letters s [] [] [] rfl
    simpa [joinComma] using this
  | s :: s' :: ss, _ => by
    have ih := splitComma_join (s' :: ss) (by simp)
    have : splitComma (.comma :: joinComma (s' :: ss)) = some ([] :: s' :: ss) := by
      simp only [splitComma, ih, Option.bind_some]
    have := splitComma_letters s _ _ _ this
    simpa [joinComma] using this

theorem arrow_notMem_join : ∀ ins : List (List Letter), Tok.arrow ∉ joinComma ins
  | [] => by simp [joinComma]
  | [s] => by simp [joinComma]
  | s :: s' :: ss => by
    have := arrow_notMem_join (s' :: ss)
    simp [joinComma, this]

theorem splitArrow_append (a b : List Tok) (ha : Tok.arrow ∉ a) (hb : Tok.arrow ∉ b) :
    splitArrow (a ++ .arrow :: b) = some (a, b) := by
  induction a with
  | nil => simp [splitArrow, hb]
  | cons t a ih =>
    simp only [List.mem_cons, not_or] at ha
    rcases t with l | _ | _
    · simp [splitArrow, ih ha.2]
    · simp [splitArrow, ih ha.2]
    · exact absurd rfl ha.1

theorem lettersOnly_map (s : List Letter) : lettersOnly (s.map .letter) = some s := by
  induction s with
  | nil => rfl
  | cons l s ih => simp [lettersOnly, ih]

/-- The formula string built from its parts splits into the same parts (so working with the parts, as this
model does, loses nothing), for every formula with at least one operand. -/
theorem split_reconstitute (f : Formula) (h : f.ins ≠ []) : splitFormula (reconstitute f) = some f := by
  unfold splitFormula reconstitute
  rw [splitArrow_append _ _ (arrow_notMem_join _) (by simp)]
  simp only [Option.bind_some, splitComma_join _ h, lettersOnly_map]

theorem splitComma_some : ∀ (ts : List Tok) (ins : List (List Letter)), splitComma ts = some ins →
    ins ≠ [] ∧ ts = joinComma ins
  | [], ins, h => by
    simp only [splitComma, Option.some.injEq] at h
    subst h; simp [joinComma]
  | .letter l :: ts, ins, h => by
    simp only [splitComma] at h
    rcases h1 : splitComma ts with _ | _ | ⟨p, ps⟩ <;> rw [h1] at h <;> simp at h
    subst h
    obtain ⟨_, h2⟩ := splitComma_some ts _ h1
    cases ps <;> simp [h2, joinComma]
  | .comma :: ts, ins, h => by
    simp only [splitComma] at h
    rcases h1 : splitComma ts with _ | ps <;> rw [h1] at h <;> simp at h
    subst h
    obtain ⟨h0, h2⟩ := splitComma_some ts _ h1
    cases ps with
    | nil => exact absurd rfl h0
    | cons p ps => simp [h2, joinComma]
  | .arrow :: ts, ins, h => by simp [splitComma] at h

theorem splitArrow_some : ∀ (ts a b : List Tok), splitArrow ts = some (a, b) →
    ts = a ++ .arrow :: b ∧ Tok.arrow ∉ b
  | [], a, b, h => by simp [splitArrow] at h
  | .arrow :: ts, a, b, h => by
    simp only [splitArrow] at h
    split at h
    · simp at h
    · rename_i hn
      simp only [Option.some.injEq, Prod.mk.injEq] at h
      obtain ⟨rfl, rfl⟩ := h
      exact ⟨rfl, hn⟩
  | .letter l :: ts, a, b, h => by
    simp only [splitArrow, Option.bind_eq_some_iff, Option.some.injEq, Prod.mk.injEq, Prod.exists] at h
    obtain ⟨a', b', h1, rfl, rfl⟩ := h
    obtain ⟨h2, h3⟩ := splitArrow_some ts _ _ h1
    exact ⟨by rw [h2]; rfl, h3⟩
  | .comma :: ts, a, b, h => by
    simp only [splitArrow, Option.bind_eq_some_iff, Option.some.injEq, Prod.mk.injEq, Prod.exists] at h
    obtain ⟨a', b', h1, rfl, rfl⟩ := h
    obtain ⟨h2, h3⟩ := splitArrow_some ts _ _ h1
    exact ⟨by rw [h2]; rfl, h3⟩

theorem lettersOnly_some : ∀ (ts : List Tok) (s : List Letter), lettersOnly ts = some s → ts = s.map .letter
  | [], s, h => by simp only [lettersOnly, Option.some.injEq] at h; subst h; rfl
  | .letter l :: ts, s, h => by
    simp only [lettersOnly, Option.bind_eq_some_iff, Option.some.injEq] at h
    obtain ⟨s', h1, rfl⟩ := h
    simp [lettersOnly_some ts s' h1]
  | .comma :: ts, s, h => by simp [lettersOnly] at h
  | .arrow :: ts, s, h => by simp [lettersOnly] at h

/-- A string is split if and only if it is the string built from the parts returned; in particular strings with no
arrow or with more than one arrow are rejected. -/
theorem split_formula_iff (ts : List Tok) (f : Formula) :
    splitFormula ts = some f ↔ f.ins ≠ [] ∧ ts = joinComma f.ins ++ .arrow :: f.out.map .letter := by
  constructor
  · intro h
    simp only [splitFormula, Option.bind_eq_some_iff, Option.some.injEq, Prod.exists] at h
    obtain ⟨a, b, h1, ins, h2, out, h3, rfl⟩ := h
    obtain ⟨h4, _⟩ := splitArrow_some _ _ _ h1
    obtain ⟨h5, h6⟩ := splitComma_some _ _ h2
    refine ⟨h5, ?_⟩
    rw [h4, h6, lettersOnly_some _ _ h3]
  · rintro ⟨h, rfl⟩
    exact split_reconstitute f h

/-- A string without exactly one arrow is rejected (unpacking `formula.split('->')` raises). -/
theorem split_one_arrow (ts : List Tok) (h : ts.count .arrow ≠ 1) : splitFormula ts = none := by
  rcases h1 : splitFormula ts with _ | f
  · rfl
  · obtain ⟨_, rfl⟩ := (split_formula_iff ts f).mp h1
    have h0 : List.count Tok.arrow (f.out.map .letter) = 0 := by
      rw [List.count_eq_zero]; simp
    rw [List.count_append, List.count_cons_self, List.count_eq_zero.mpr (arrow_notMem_join _), h0] at h
    exact absurd rfl h

/-! ### Non-vacuity -/

/-- The example of the documentation (einsum.py:175-185): `'ab,bc,cd->ad'` and `'ab,bc->ac'` give
`'ab,bc,cd,de->ae'` up to the names chosen. -/
example : compose ⟨[[0, 1], [1, 2], [2, 3]], [0, 3]⟩ 1 ⟨[[0, 1], [1, 2]], [0, 2]⟩ =
    some ⟨[[0, 1], [1, 4], [4, 2], [2, 3]], [0, 3]⟩ := by decide

/-- A child operand used on its diagonal by the parent: `'aa->a'` of `'ij,jk->ik'`. -/
example : compose ⟨[[0, 0]], [0]⟩ 0 ⟨[[8, 9], [9, 10]], [8, 10]⟩ = some ⟨[[0, 1], [1, 0]], [0]⟩ := by decide

/-- The hypotheses of `compose_einsums_value` are met by the matrices of the documentation. -/
example (x y w z : List ℕ → ℤ) : ∃ c,
    einsum ⟨[[0, 1], [1, 2]], [0, 2]⟩ [⟨[5, 2], x⟩, ⟨[2, 3], y⟩] = some c ∧ ∃ v,
    einsum ⟨[[0, 1], [1, 2], [2, 3]], [0, 3]⟩ ([⟨[4, 5], w⟩] ++ c :: [⟨[3, 1], z⟩]) = some v ∧
    v.shape = [4, 1] := by
  refine ⟨_, einsum_fits (fun l => if l = 0 then 5 else if l = 1 then 2 else 3) (by rfl) (by decide)
    (by decide), ?_⟩
  exact ⟨_, einsum_fits (fun l => if l = 0 then 4 else if l = 1 then 5 else if l = 2 then 3 else 1) (by rfl)
    (by decide) (by decide), by rfl⟩

/-- More than 52 names are needed: `compose_einsums` raises although the nested einsums have a value. -/
theorem compose_exhausted :
    compose ⟨[List.finRange 52], []⟩ 0 ⟨[List.finRange 52, List.finRange 52], List.finRange 52⟩ ≠ none ∧
    compose ⟨[List.finRange 52, [0]], []⟩ 1 ⟨[[0, 1], [1]], [0]⟩ = none := by
  constructor
  · decide +kernel
  · decide +kernel

end Verif.Autoconj
