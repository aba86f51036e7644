/-
C16, other keys: when a program uses its key only for its named random variables, fixing all of them to the values of a
trace reproduces the output of the traced execution from any other key.
-/
import Verif.Ppl.Props
import Verif.Ppl.Witness

namespace Verif.Ppl

open Verif.Harvest

/-! ### Specification -/

/-- The named random variables (as selected by `S`) are the only way in which the difference between two inputs related by
`R` can influence the program: whatever values they take, the same for both inputs, the outputs are related by `Q`.
Read `R` as "equal up to the key".  Nothing is said about the values that the random variables are given when they are
sampled. -/
def Blind {V : Type} (S : Settings) : {A B : Type} → (A → A → Prop) → Prog V A B → (B → B → Prop) → Prop
  | _, _, R, .pure f, Q => ∀ a a' b, R a a' → f a = .ok b → ∃ b', f a' = .ok b' ∧ Q b b'
  | _, _, R, .seq p q, Q => ∃ T, Blind S R p T ∧ Blind S T q Q
  | _, _, R, .sow tag name _ pre _ post, Q =>
    if S.active tag name then ∀ a a' v, R a a' → Q (post a v) (post a' v)
    else ∀ a a', R a a' → Q (post a (pre a)) (post a' (pre a'))
  | _, _, R, .nest _ pre body post, Q => ∃ T U, (∀ a a', R a a' → T (pre a) (pre a')) ∧ Blind S T body U ∧
      ∀ a a' y y', R a a' → U y y' → Q (post a y) (post a' y')
  | _, _, R, .inline pre body post, Q => ∃ T U, (∀ a a', R a a' → T (pre a) (pre a')) ∧ Blind S T body U ∧
      ∀ a a' y y', R a a' → U y y' → Q (post a y) (post a' y')
  | _, _, R, .call _ pre body post, Q => ∃ T U, (∀ a a', R a a' → T (pre a) (pre a')) ∧ Blind S T body U ∧
      ∀ a a' y y', R a a' → U y y' → Q (post a y) (post a' y')
  | _, _, R, .cond _ sel pre br post, Q => (∀ a a', R a a' → sel a = sel a') ∧
      ∃ T U, (∀ a a', R a a' → T (pre a) (pre a')) ∧ (∀ i, Blind S T (br i) U) ∧
        ∀ a a' y y', R a a' → U y y' → Q (post a y) (post a' y')
  | _, _, R, .scan (K := K) (X := X) (Y := Y) _ pre body post, Q => ∃ (TK : K → K → Prop) (TX : X → X → Prop) (TY : Y → Y → Prop),
      (∀ a a', R a a' → TK (pre a).1 (pre a').1 ∧ List.Forall₂ TX (pre a).2 (pre a').2) ∧
      Blind S (fun x x' => TK x.1 x'.1 ∧ TX x.2 x'.2) body (fun y y' => TK y.1 y'.1 ∧ TY y.2 y'.2) ∧
      ∀ a a' k k' ys ys', R a a' → TK k k' → List.Forall₂ TY ys ys' → Q (post a k ys) (post a' k' ys')
  | _, _, R, .whileL (K := K) pre test body post, Q => ∃ (TK : K → K → Prop), (∀ a a', R a a' → TK (pre a) (pre a')) ∧
      (∀ fuel k k', TK k k' → run fuel test k = run fuel test k') ∧ Blind S TK body TK ∧
      ∀ a a' k k', R a a' → TK k k' → Q (post a k) (post a' k')

/-! ### Lemmas -/

theorem scanM_related {K X K' X' Y Y' : Type} {TK : K → K' → Prop} {TX : X → X' → Y → Prop} {TY : Y → Y' → Prop}
    {f : K × X → Except RErr (K × Y)} {g : K' × X' → Except RErr (K' × Y')}
    (h : ∀ k k' x x' k1 y, TK k k' → TX x x' y → f (k, x) = .ok (k1, y) →
      ∃ k1' y', g (k', x') = .ok (k1', y') ∧ TK k1 k1' ∧ TY y y') :
    ∀ (xs : List X) (xs' : List X') (k : K) (k' : K') (k1 : K) (ys : List Y), TK k k' →
      scanM f k xs = .ok (k1, ys) → xs.length = xs'.length →
      List.Forall₂ (fun xu y => TX xu.1 xu.2 y) (xs.zip xs') ys →
      ∃ k1' ys', scanM g k' xs' = .ok (k1', ys') ∧ TK k1 k1' ∧ List.Forall₂ TY ys ys'
  | [], [], k, k', k1, ys, hk, hs, _, _ => by
    simp only [scanM, Except.ok.injEq, Prod.mk.injEq] at hs
    obtain ⟨rfl, rfl⟩ := hs
    exact ⟨k', [], rfl, hk, .nil⟩
  | x :: xs, [], k, k', k1, ys, hk, hs, hl, hX => by simp at hl
  | [], x' :: xs', k, k', k1, ys, hk, hs, hl, hX => by simp at hl
  | x :: xs, x' :: xs', k, k', k1, ys, hk, hs, hl, hX => by
    simp only [scanM] at hs ⊢
    rcases h1 : f (k, x) with e | ⟨k2, y⟩ <;> rw [h1] at hs
    · simp at hs
    simp only [except_bind_ok] at hs
    rcases h2 : scanM f k2 xs with e | ⟨k3, ys2⟩ <;> rw [h2] at hs
    · simp at hs
    simp only [except_bind_ok, except_pure, Except.ok.injEq, Prod.mk.injEq] at hs
    obtain ⟨rfl, rfl⟩ := hs
    simp only [List.zip_cons_cons] at hX
    obtain ⟨hx, hX'⟩ := List.forall₂_cons.1 hX
    obtain ⟨k2', y', hg, hk2, hy⟩ := h k k' x x' k2 y hk hx h1
    obtain ⟨k3', ys', hg2, hk3, hys⟩ := scanM_related h xs xs' k2 k2' k3 ys2 hk2 h2 (by simpa using hl) hX'
    exact ⟨k3', y' :: ys', by simp only [hg, except_bind_ok, hg2, except_pure], hk3, .cons hy hys⟩

theorem scanDir_related {K X K' X' Y Y' : Type} (rev : Bool) {TK : K → K' → Prop} {TX : X → X' → Y → Prop}
    {TY : Y → Y' → Prop} {f : K × X → Except RErr (K × Y)} {g : K' × X' → Except RErr (K' × Y')}
    (h : ∀ k k' x x' k1 y, TK k k' → TX x x' y → f (k, x) = .ok (k1, y) →
      ∃ k1' y', g (k', x') = .ok (k1', y') ∧ TK k1 k1' ∧ TY y y')
    (xs : List X) (xs' : List X') (k : K) (k' : K') (k1 : K) (ys : List Y) (hk : TK k k')
    (hs : scanDir rev f k xs = .ok (k1, ys)) (hl : xs.length = xs'.length)
    (hX : List.Forall₂ (fun xu y => TX xu.1 xu.2 y) (xs.zip xs') ys) :
    ∃ k1' ys', scanDir rev g k' xs' = .ok (k1', ys') ∧ TK k1 k1' ∧ List.Forall₂ TY ys ys' := by
  cases rev
  · exact scanM_related h xs xs' k k' k1 ys hk hs hl hX
  · simp only [scanDir, if_true] at hs ⊢
    rcases h1 : scanM f k xs.reverse with e | r1 <;> rw [h1] at hs <;> simp at hs
    obtain ⟨rfl, rfl⟩ := hs
    have hX' := forall₂_reverse hX
    rw [List.reverse_reverse, List.zip, List.reverse_zipWith hl] at hX'
    obtain ⟨k1', ys', h2, h3, h4⟩ := scanM_related h xs.reverse xs'.reverse k k' r1.1 r1.2 hk h1 (by simpa using hl) hX'
    exact ⟨k1', ys'.reverse, by rw [h2]; rfl, h3, forall₂_reverse h4⟩

theorem loopT_related {V K : Type} {TK : K → K → Prop} {c : K → Except RErr (Bool × Log V)}
    {b b' : K → Except RErr (K × Log V)}
    (hc : ∀ k k' r, TK k k' → c k = .ok r → ∃ l, c k' = .ok (r.1, l))
    (hb : ∀ k k' r, TK k k' → b k = .ok r → ∃ k1 l, b' k' = .ok (k1, l) ∧ TK r.1 k1) :
    ∀ (n : Nat) (k k' : K) r, TK k k' → loopT c b n k = .ok r → ∃ k1 ls, loopT c b' n k' = .ok (k1, ls) ∧ TK r.1 k1 := by
  intro n
  induction n with
  | zero => intro k k' r _ h; simp [loopT] at h
  | succ n ih =>
    intro k k' r hk h
    simp only [loopT] at h ⊢
    rcases hck : c k with e | ⟨t, lt⟩ <;> rw [hck] at h
    · simp at h
    obtain ⟨l, hl⟩ := hc k k' _ hk hck
    rw [hl]
    cases t
    · simp only [except_bind_ok, Bool.false_eq_true, if_false, except_pure, Except.ok.injEq] at h ⊢
      subst h
      exact ⟨k', _, rfl, hk⟩
    · simp only [except_bind_ok, if_true] at h ⊢
      rcases h1 : b k with e | s <;> rw [h1] at h
      · simp at h
      simp only [except_bind_ok] at h
      rcases h2 : loopT c b n s.1 with e | u <;> rw [h2] at h
      · simp at h
      simp only [except_bind_ok, except_pure, Except.ok.injEq] at h
      subst h
      obtain ⟨k1, l1, e1, hk1⟩ := hb k k' s hk h1
      obtain ⟨k2, ls, e2, hk2⟩ := ih _ k1 _ hk1 h2
      exact ⟨k2, (l1 :: ls.1, l ++ ls.2), by simp only [e1, except_bind_ok, e2, except_pure], hk2⟩

/-- Planting all the values of a log in an execution from a related input. -/
theorem ptrace_blind {V A B : Type} (S : Settings) (fuel : Nat) (p : Prog V A B) :
    NoClobber S p → ScopesActive S p → Regular S (fun _ => false) p →
    ∀ {m0 m1 : Meta}, metaOf S p m0 = .ok m1 → Fits (fun _ => false) m0 →
    ∀ (R : A → A → Prop) (Q : B → B → Prop), Blind S R p Q →
    ∀ (a a' : A) (b : B) (l : Log V), Harvest.trace fuel p a = .ok (b, l) → R a a' → ∀ (P : Dict V),
    (∀ n, (declares S n (sites p)).isSome → P n = some ((collect S n l).getD .zeros)) →
    ∃ b' l', ptrace S fuel p P a' = .ok (b', l') ∧ Q b b' := by
  simp only [ScopesActive, NoClobber]
  induction p with
  | pure f =>
    intro _ _ _ m0 m1 _ _ R Q hB a a' b l ht ha P _
    simp only [Harvest.trace] at ht
    simp only [ptrace]
    rcases hfa : f a with e | b1 <;> rw [hfa] at ht <;> simp at ht
    obtain ⟨b', hb', hq⟩ := hB a a' b1 ha hfa
    exact ⟨b', [], by simp [hb'], by rw [← ht.1]; exact hq⟩
  | seq p q ihp ihq =>
    intro hc hs hr m0 m1 hm hf R Q hB a a' b l ht haa P hP
    obtain ⟨T, hB1, hB2⟩ := hB
    simp only [metaOf] at hm
    rcases hmp : metaOf S p m0 with e | m <;> rw [hmp] at hm
    · simp at hm
    simp only [except_bind_ok] at hm
    simp only [Harvest.trace] at ht
    rcases h1 : Harvest.trace fuel p a with e | ⟨b1, l1⟩ <;> rw [h1] at ht
    · simp at ht
    simp only [except_bind_ok] at ht
    rcases h2 : Harvest.trace fuel q b1 with e | ⟨b2, l2⟩ <;> rw [h2] at ht
    · simp at ht
    simp only [except_bind_ok, except_pure, Except.ok.injEq, Prod.mk.injEq] at ht
    obtain ⟨rfl, rfl⟩ := ht
    have hfm : Fits (fun _ => false) m := Fits.metaOf hr.1 hmp hf
    have hexcl : ∀ n, (declares S n (sites p)).isSome → declares S n (sites q) = none := by
      intro n hn
      obtain ⟨k, hk⟩ := Option.isSome_iff_exists.1 hn
      exact metaOf_nonclobber hm (NoClobber.declares p hc.1 n k hk)
        (by rw [(metaOf_get S p hmp).1 n, hk]; rfl)
    obtain ⟨b1', l1', hl1, hv1⟩ := ihp hc.1 hs.1 hr.1 hmp hf R T hB1 a a' b1 l1 h1 haa P (by
      intro n hn
      refine (hP n (by rw [sites, declares_append, Option.isSome_or, hn, Bool.or_true])).trans ?_
      rw [collect_append, collect_undeclared hr.2 hm hfm h2 (hexcl n hn), Option.none_or])
    obtain ⟨b2', l2', hl2, hv2⟩ := ihq hc.2 hs.2 hr.2 hm hfm T Q hB2 b1 b1' b2 l2 h2 hv1 P (by
      intro n hn
      have hpn : declares S n (sites p) = none := by
        rw [← Option.not_isSome_iff_eq_none]
        intro h
        rw [hexcl n h] at hn; simp at hn
      refine (hP n (by rw [sites, declares_append, Option.isSome_or, hn, Bool.true_or])).trans ?_
      rw [collect_append, collect_undeclared hr.1 hmp hf h1 hpn, Option.or_none])
    exact ⟨b2', l1' ++ l2', by simp only [ptrace, hl1, except_bind_ok, hl2, except_pure], hv2⟩
  | sow tag name mode pre pred post =>
    intro hc hs hr m0 m1 hm hf R Q hB a a' b l ht haa P hP
    simp only [Harvest.trace, Except.ok.injEq, Prod.mk.injEq] at ht
    obtain ⟨rfl, rfl⟩ := ht
    simp only [ptrace]
    simp only [Blind] at hB
    by_cases ha : S.active tag name = true
    · have hmode : mode ≠ .condClobber := by
        intro h; have := hc ha; rw [h] at this; simp [Mode.isClobber] at this
      have := hP name (by simp [sites, declares, Site.declares, ha])
      simp only [collect, Ev.collect, ha, hmode, true_and, false_imp_iff, and_self, if_true,
        Option.none_or, Option.getD_some] at this
      rw [if_pos ha] at hB ⊢
      rw [this]
      exact ⟨_, _, rfl, hB a a' _ haa⟩
    · rw [if_neg ha] at hB ⊢
      split
      · exact ⟨_, _, rfl, hB a a' haa⟩
      · exact ⟨_, _, rfl, hB a a' haa⟩
  | nest scope pre body post ih =>
    intro hc hs hr m0 m1 hm hf R Q hB a a' b l ht haa P hP
    obtain ⟨T, U, hT, hB', hU⟩ := hB
    simp only [metaOf] at hm
    rcases hmp : metaOf S body [] with e | m <;> rw [hmp] at hm
    · simp at hm
    simp only [Harvest.trace] at ht
    rcases h1 : Harvest.trace fuel body (pre a) with e | ⟨b1, l1⟩ <;> rw [h1] at ht <;> simp at ht
    obtain ⟨rfl, rfl⟩ := ht
    obtain ⟨b', l', hl', hv'⟩ := ih hc.2 hs.2 hr.1 hmp (Fits.nil _) T U hB' _ _ b1 l1 h1 (hT a a' haa) (inScope P scope) (by
      intro n hn
      have hany : anySite S (sites body) = true := (anySite_iff S _).2 ⟨n, hn⟩
      have := hP scope (by simp [sites, declares, Site.declares, hs.1, hany])
      simp only [collect, Ev.collect, hs.1, hany, and_self, if_true, Option.none_or,
        Option.getD_some] at this
      simp only [inScope, this, hn, if_true])
    simp only [ptrace, hl', except_map_ok]
    exact ⟨_, _, rfl, hU _ _ _ _ haa hv'⟩
  | inline pre body post ih =>
    intro hc hs hr m0 m1 hm hf R Q hB a a' b l ht haa P hP
    obtain ⟨T, U, hT, hB', hU⟩ := hB
    simp only [Harvest.trace] at ht
    rcases h1 : Harvest.trace fuel body (pre a) with e | ⟨b1, l1⟩ <;> rw [h1] at ht <;> simp at ht
    obtain ⟨rfl, rfl⟩ := ht
    obtain ⟨b', l', hl', hv'⟩ := ih hc hs hr hm hf T U hB' _ _ b1 l1 h1 (hT a a' haa) P hP
    simp only [ptrace, hl', except_map_ok]
    exact ⟨_, _, rfl, hU _ _ _ _ haa hv'⟩
  | call _ pre body post ih =>
    intro hc hs hr m0 m1 hm hf R Q hB a a' b l ht haa P hP
    obtain ⟨T, U, hT, hB', hU⟩ := hB
    simp only [metaOf] at hm
    rcases hmp : metaOf S body [] with e | m <;> rw [hmp] at hm
    · simp at hm
    simp only [Harvest.trace] at ht
    rcases h1 : Harvest.trace fuel body (pre a) with e | ⟨b1, l1⟩ <;> rw [h1] at ht <;> simp at ht
    obtain ⟨rfl, rfl⟩ := ht
    obtain ⟨b', l', hl', hv'⟩ := ih hc hs hr hmp (Fits.nil _) T U hB' _ _ b1 l1 h1 (hT a a' haa) P hP
    simp only [ptrace, hl', except_map_ok]
    exact ⟨_, _, rfl, hU _ _ _ _ haa hv'⟩
  | cond j sel pre br post ih =>
    intro hc hs hr m0 m1 hm hf R Q hB a a' b l ht haa P hP
    obtain ⟨hsel, T, U, hT, hB', hU⟩ := hB
    simp only [metaOf] at hm
    rcases hp0 : metaOf S (br 0) [] with e | first <;> rw [hp0] at hm
    · simp at hm
    simp only [except_bind_ok] at hm
    rcases hmq : (List.finRange (j + 1)).mapM (fun i => metaOf S (br i) []) with e | ms <;>
      rw [hmq] at hm
    · simp at hm
    simp only [except_bind_ok] at hm
    rcases hcc : metaCond first ms with e | u <;> rw [hcc] at hm
    · simp at hm
    obtain ⟨mi, hmi, hb⟩ := metaBranch_of_metaOf_cond hmq hcc (sel a)
    simp only [Harvest.trace] at ht
    rcases h1 : Harvest.trace fuel (br (sel a)) (pre a) with e | ⟨b1, l1⟩ <;> rw [h1] at ht <;> simp at ht
    obtain ⟨rfl, rfl⟩ := ht
    obtain ⟨b', l', hl', hv'⟩ := ih (sel a) (hc _) (hs _) (hr _) hmi (Fits.nil _) T U (hB' _) _ _ b1 l1 h1
      (hT a a' haa) P (by
      intro n hn
      apply hP
      have := ((metaBranch_ok (metaOf_nil_keys hmi) hb) n).1
      rw [metaOf_nil_get hmi, metaOf_nil_get hp0] at this
      exact this.1 hn)
    simp only [ptrace, ← hsel a a' haa, hl', except_map_ok]
    exact ⟨_, _, rfl, hU _ _ _ _ haa hv'⟩
  | scan rev pre body post ih =>
    intro hc hs hr m0 m1 hm hf R Q hB a a' b l ht haa P hP
    obtain ⟨TK, TX, TY, hT, hB', hU⟩ := hB
    simp only [metaOf] at hm
    rcases hmp : metaOf S body [] with e | m <;> rw [hmp] at hm
    · simp at hm
    simp only [except_bind_ok] at hm
    rcases hms : metaScan m with e | u <;> rw [hms] at hm
    · simp at hm
    have happ : ∀ n, (declares S n (sites body)).isSome → declares S n (sites body) = some .append := by
      intro n hn
      obtain ⟨k, hk⟩ := Option.isSome_iff_exists.1 hn
      have h1 := NoClobber.declares body hc n k hk
      have h2 := metaScan_ok hms n
      rw [metaOf_nil_get hmp, hk] at h2
      have h3 := metaOf_valid body hmp n
      rw [hk] at h3 ⊢
      cases k <;> simp_all [Mode.isClobber]
    simp only [Harvest.trace] at ht
    rcases h1 : scanDir rev (fun kx => (Harvest.trace fuel body kx).map (fun r => (r.1.1, (r.1.2, r.2))))
      (pre a).1 (pre a).2 with e | ⟨k', ys⟩ <;> rw [h1] at ht <;> simp at ht
    obtain ⟨rfl, rfl⟩ := ht
    have hlen : (pre a).2.length = ys.length := (scanDir_zip rev _ _ _ h1).length_eq
    obtain ⟨hk0, hx0⟩ := hT a a' haa
    have hlen' : (pre a).2.length = (pre a').2.length := hx0.length_eq
    have hPn : ∀ n, (declares S n (sites body)).isSome →
        P n = some (.stack (ys.map (fun y => (collect S n y.2).getD .zeros))) := by
      intro n hn
      rw [hP n hn]
      simp [collect, Ev.collect, happ n hn, collectIters_eq_map]
    have hent : entriesOk S (sites body) P (pre a').2.length := by
      intro n v hn hv
      rw [hPn n (by rw [hn]; rfl)] at hv
      simp at hv
      subst hv
      simp [Val.hasEntries, ← hlen, hlen']
    obtain ⟨k1', zs, hz1, hz2, hz3⟩ := scanDir_related rev (TK := TK)
      (f := fun kx => (Harvest.trace fuel body kx).map (fun r => (r.1.1, (r.1.2, r.2))))
      (g := fun kx : _ × _ × Nat =>
          (ptrace S fuel body (iterPlant S (sites body) P kx.2.2) (kx.1, kx.2.1)).map
            (fun r => (r.1.1, (r.1.2, r.2))))
      (TX := fun x u y => TX x u.1 ∧ ∀ n, (declares S n (sites body)).isSome →
        iterPlant S (sites body) P u.2 n = some ((collect S n y.2).getD .zeros))
      (TY := fun y z => TY y.1 z.1)
      (by
        rintro k k2 x ⟨x', i⟩ k1 y hk ⟨hx, hR⟩ he
        simp only at hR he hx ⊢
        rcases h2 : Harvest.trace fuel body (k, x) with e | s <;> rw [h2] at he <;> simp at he
        obtain ⟨rfl, rfl⟩ := he
        obtain ⟨b', l', hl', hv'⟩ := ih hc hs hr.1 hmp (Fits.nil _) _ _ hB' _ (k2, x') s.1 s.2 h2 ⟨hk, hx⟩ _ hR
        exact ⟨b'.1, (b'.2, l'), by rw [hl']; rfl, hv'⟩)
      _ (pre a').2.zipIdx _ (pre a').1 _ _ hk0 h1 (by simpa using hlen')
      (by
        rw [List.forall₂_iff_get]
        refine ⟨by simp [hlen, ← hlen'], fun i h2 h3 => ?_⟩
        simp only [List.get_eq_getElem, List.getElem_zip, List.getElem_zipIdx, Nat.zero_add]
        refine ⟨?_, fun n hn => ?_⟩
        · rw [List.forall₂_iff_get] at hx0
          exact hx0.2 i _ _
        simp only [iterPlant, happ n hn, if_true]
        rw [hPn n hn]
        simp only [Option.bind_some, Val.entry]
        rw [List.getElem?_eq_getElem (by simpa using h3)]
        simp)
    simp only [ptrace]
    rw [if_pos hent, hz1, except_map_ok]
    refine ⟨_, _, rfl, hU _ _ _ _ _ _ haa hz2 ?_⟩
    rw [List.forall₂_map_left_iff, List.forall₂_map_right_iff]
    exact hz3
  | whileL pre test body post iht ihb =>
    intro hc hs hr m0 m1 hm hf R Q hB a a' b l ht haa P hP
    obtain ⟨TK, hT, hte, hB', hU⟩ := hB
    simp only [metaOf] at hm
    rcases hmp : metaOf S body [] with e | m <;> rw [hmp] at hm
    · simp at hm
    simp only [except_bind_ok] at hm
    rcases hms : metaWhile m with e | u <;> rw [hms] at hm
    · simp at hm
    have hnone : ∀ n, declares S n (sites body) = none := by
      intro n
      cases hk : declares S n (sites body) with
      | none => rfl
      | some k =>
        have h1 := NoClobber.declares body hc.2 n k hk
        have h2 := metaWhile_ok hms n k (by rw [metaOf_nil_get hmp, hk])
        rw [h1] at h2; simp at h2
    simp only [Harvest.trace] at ht
    rcases h1 : loopT (fun k => Harvest.trace fuel test k) (fun k => Harvest.trace fuel body k) fuel (pre a) with e | r <;>
      rw [h1] at ht <;> simp at ht
    obtain ⟨rfl, rfl⟩ := ht
    obtain ⟨k1, ls, hls, hk1⟩ := loopT_related (TK := TK) (c := fun k => Harvest.trace fuel test k)
      (b := fun k => Harvest.trace fuel body k) (b' := fun k => ptrace S fuel body P k)
      (by
        intro k k' r hk he
        have := hte fuel k k' hk
        rw [run_eq_trace, run_eq_trace, he] at this
        rcases h3 : Harvest.trace fuel test k' with e | s <;> rw [h3] at this <;> simp at this
        exact ⟨s.2, by rw [this]⟩)
      (by
        intro k k' r hk he
        exact ihb hc.2 hs.2 hr.1 hmp (Fits.nil _) _ _ hB' k k' r.1 r.2 he hk P
          (by intro n hn; rw [hnone n] at hn; simp at hn))
      _ _ (pre a') _ (hT a a' haa) h1
    simp only [ptrace, hls, except_map_ok]
    exact ⟨_, _, rfl, hU _ _ _ _ haa hk1⟩

/-! ### C16 -/

/-- C16: fixing all latents to the values of a trace reproduces the output of the traced execution, also for another key,
if the key is only used by the named random variables. -/
theorem trace_replay_other_key {V A B : Type} (f : Prog V A B) (hf : RvProg f) (t : Prog V A (B × Dict V))
    (h : trace f = .ok t) (fuel : Nat) (a : A) (b : B) (D : Dict V) (hr : run fuel t a = .ok (b, D))
    (hD : Plain D) (R : A → A → Prop) (hB : Blind rvS R f Eq) :
    ∃ g, intervene f D = .ok g ∧ ∀ a', R a a' → run fuel g a' = .ok b := by
  obtain ⟨g, hg⟩ := plant_accepts rvS f t h D
  obtain ⟨m, hm, -⟩ := callAndReap_ok h
  rw [trace_exact f hf t h] at hr
  rcases ht : Harvest.trace fuel f a with e | ⟨b', l⟩ <;> rw [ht] at hr <;> simp at hr
  obtain ⟨rfl, rfl⟩ := hr
  refine ⟨g, hg, fun a' ha => ?_⟩
  rw [plant_override_run rvS f _ g hg (RvProg.scopes f) hD]
  obtain ⟨b2, l', hl', rfl⟩ := ptrace_blind rvS fuel f hf.noClobber (RvProg.scopes f) hf.regular hm (Fits.nil _) R Eq hB
    a a' b' l ht ha (expected rvS f l) (by intro n hn; simp [expected, hn])
  rw [hl']; rfl

/-! ### A concrete case -/

namespace Ex
open Verif.Harvest.Ex

/-- Environments that agree on the sampled values, in front of the key. -/
def SameButKey (e e' : List (Val Nat)) (n : Nat) : Prop :=
  ∃ vs k k', vs.length = n ∧ e = vs ++ [k] ∧ e' = vs ++ [k']

theorem rv_blind (name : String) (g : List (Val Nat) → Nat) (n : Nat) :
    Blind rvS (SameButKey · · n) (rv name g) (SameButKey · · (n + 1)) := by
  refine ⟨fun x x' => SameButKey x.1 x'.1 n, ⟨(SameButKey · · n), _, fun _ _ h => h, ?_, fun _ _ _ _ _ h => h⟩, ?_⟩
  · intro a a' b h hb
    simp only [Except.ok.injEq] at hb
    subst hb
    exact ⟨_, rfl, h⟩
  · simp only [Blind]
    rw [if_pos (by rfl)]
    rintro ⟨e, v⟩ ⟨e', v'⟩ w ⟨vs, k, k', hl, rfl, rfl⟩
    exact ⟨w :: vs, k, k', by simp [hl], rfl, rfl⟩

theorem model_blind : Blind rvS (SameButKey · · 0) model Eq := by
  refine ⟨_, rv_blind "z" _ 0, _, rv_blind "x" _ 1, _, rv_blind "w" _ 2, ?_⟩
  rintro a a' b ⟨vs, k, k', hl, rfl, rfl⟩ hb
  refine ⟨b, ?_, rfl⟩
  match vs, hl with
  | [_, _, _], _ => simpa using hb

/-- C16: any other key. -/
example : ∃ g, intervene model lat = .ok g ∧ ∀ k, run 5 g [k] = .ok (.leaf 132) := by
  obtain ⟨t, ht⟩ : ∃ t, trace model = .ok t := ⟨_, rfl⟩
  obtain ⟨l, hl⟩ : ∃ l, Harvest.trace 5 model [.leaf 10] = .ok (.leaf 132, l) ∧ expected rvS model l = lat := by
    refine ⟨_, rfl, ?_⟩
    funext k
    by_cases hz : k = "z"
    · subst hz; rfl
    by_cases hx : k = "x"
    · subst hx; rfl
    by_cases hw : k = "w"
    · subst hw; rfl
    have h1 : ¬ "z" = k := fun h => hz h.symm
    have h2 : ¬ "x" = k := fun h => hx h.symm
    have h3 : ¬ "w" = k := fun h => hw h.symm
    simp [expected, lat, hz, hx, hw, h1, h2, h3, model, rv, sites, declares, Site.declares]
  have hr : run 5 t [.leaf 10] = .ok (.leaf 132, lat) := by
    rw [trace_exact model model_rv t ht, hl.1, ← hl.2]; rfl
  obtain ⟨g, hg, hk⟩ := trace_replay_other_key model model_rv t ht 5 [.leaf 10] _ _ hr
    (fun _ => plain_ite _ _ _ _ (fun _ => plain_ite _ _ _ _ (plain_pl "w" 100))) _ model_blind
  exact ⟨g, hg, fun k => hk [k] ⟨[], .leaf 10, k, rfl, rfl, rfl⟩⟩

/-- def leak(key): z = rv(key + 1, 'z'); return z + key: the key is used outside of the random variable -/
def leak : Prog Nat (List (Val Nat)) (Val Nat) :=
  .seq (rv "z" (fun e => num (e.getD 0 .zeros) + 1)) <|
  .pure (fun e => .ok (.leaf (num (e.getD 0 .zeros) + num (e.getD 1 .zeros))))

/-- The condition on the key is needed: a program that uses its key elsewhere has another output for another key. -/
theorem replay_other_key_needs_blind : RvProg leak ∧ (∃ t d, trace leak = .ok t ∧
      run 5 t [.leaf 10] = .ok (.leaf 21, d) ∧ d "z" = some (.leaf 11)) ∧
    ∃ g, intervene leak (pl "z" 11) = .ok g ∧ run 5 g [.leaf 10] = .ok (.leaf 21) ∧ run 5 g [.leaf 20] = .ok (.leaf 31) :=
  ⟨by simp [leak, rv, RvProg], ⟨_, _, rfl, rfl, rfl⟩, _, rfl, rfl, rfl⟩

end Ex

end Verif.Ppl
