import Verif.Autoconj.EinsumLemmas
import Mathlib.Data.Finset.Card

/-
`compose_einsums` renames the index names of the parent injectively, links the child's output names
to the parent's, and gives the child's other names fresh letters.
-/

namespace Verif.Autoconj

/-- The current value of a key. -/
def Subs.look (s : Subs) (k : Key) : Option Letter := s.map.lookup k

/-- Keys whose letter is drawn from the iterator (all but the child's output names). -/
def Gen (cout : List Letter) : Key → Prop
  | .par _ => True
  | .child c => c ∉ cout

/-- The invariant of `subs_map`. -/
structure Inv (cout : List Letter) (s : Subs) : Prop where
  lt : ∀ k l, s.look k = some l → l.val < s.next
  inj : ∀ k k' l, Gen cout k → Gen cout k' → s.look k = some l → s.look k' = some l → k = k'
  link : ∀ c l, c ∈ cout → s.look (.child c) = some l → ∃ p, s.look (.par p) = some l

/-- Entries are never changed. -/
def Ext (s s' : Subs) : Prop := ∀ k l, s.look k = some l → s'.look k = some l

theorem Ext.trans {a b c : Subs} (h : Ext a b) (h' : Ext b c) : Ext a c := fun k l e => h' k l (h k l e)

theorem look_cons (k k' : Key) (l : Letter) (m : List (Key × Letter)) (n : ℕ) :
    Subs.look ⟨(k, l) :: m, n⟩ k' = if k' = k then some l else m.lookup k' := by
  unfold Subs.look
  simp only [List.lookup_cons]
  by_cases h : k' = k
  · subst h; simp
  · rw [beq_eq_false_iff_ne.2 h, if_neg h]

theorem get_spec {cout : List Letter} {s s' : Subs} {k : Key} {l : Letter} (h : s.get k = some (l, s'))
    (hk : Gen cout k ∨ s.look k ≠ none) (hi : Inv cout s) :
    Inv cout s' ∧ Ext s s' ∧ s'.look k = some l ∧
      ∀ k' l', s'.look k' = some l' → k' = k ∨ s.look k' = some l' := by
  unfold Subs.get at h
  rcases hl : s.map.lookup k with _ | x
  · rw [hl] at h
    dsimp only at h
    have hg : Gen cout k := hk.resolve_right (fun h => h hl)
    split at h
    · rename_i hn
      simp only [Option.some.injEq, Prod.mk.injEq] at h
      obtain ⟨rfl, rfl⟩ := h
      have look' : ∀ k', Subs.look ⟨(k, ⟨s.next, hn⟩) :: s.map, s.next + 1⟩ k' =
          if k' = k then some ⟨s.next, hn⟩ else s.look k' := fun k' => look_cons ..
      have ext : Ext s ⟨(k, ⟨s.next, hn⟩) :: s.map, s.next + 1⟩ := by
        intro k' l' e
        rw [look', if_neg]
        · exact e
        · rintro rfl
          rw [Subs.look, hl] at e; cases e
      refine ⟨⟨?_, ?_, ?_⟩, ext, ?_, ?_⟩
      · intro k' l' e
        rw [look'] at e
        split at e
        · injection e with e; subst e; exact Nat.lt_succ_self _
        · exact Nat.lt_succ_of_lt (hi.lt k' l' e)
      · intro a b l' ha hb ea eb
        rw [look'] at ea eb
        split at ea <;> split at eb
        · rename_i h1 h2; rw [h1, h2]
        · injection ea with ea; subst ea
          exact absurd (hi.lt b _ eb) (Nat.lt_irrefl _)
        · injection eb with eb; subst eb
          exact absurd (hi.lt a _ ea) (Nat.lt_irrefl _)
        · exact hi.inj a b l' ha hb ea eb
      · intro c l' hc e
        rw [look', if_neg] at e
        · obtain ⟨p, hp⟩ := hi.link c l' hc e
          exact ⟨p, ext _ _ hp⟩
        · rintro rfl
          exact hg hc
      · rw [look', if_pos rfl]
      · intro k' l' e
        rw [look'] at e
        split at e
        · exact Or.inl (by assumption)
        · exact Or.inr e
    · cases h
  · rw [hl] at h
    simp only [Option.some.injEq, Prod.mk.injEq] at h
    obtain ⟨rfl, rfl⟩ := h
    exact ⟨hi, fun _ _ e => e, hl, fun _ _ e => Or.inr e⟩

theorem getAll_spec {cout : List Letter} : ∀ {ks : List Key} {s s' : Subs} {ls : List Letter},
    Subs.getAll ks s = some (ls, s') → (∀ k ∈ ks, Gen cout k ∨ s.look k ≠ none) → Inv cout s →
    Inv cout s' ∧ Ext s s' ∧ ls.map some = ks.map s'.look ∧
      ∀ k' l', s'.look k' = some l' → k' ∈ ks ∨ s.look k' = some l'
  | [], s, s', ls, h, _, hi => by
    simp only [Subs.getAll, Option.some.injEq, Prod.mk.injEq] at h
    obtain ⟨rfl, rfl⟩ := h
    exact ⟨hi, fun _ _ e => e, rfl, fun _ _ e => Or.inr e⟩
  | k :: ks, s, s', ls, h, hk, hi => by
    simp only [Subs.getAll] at h
    rcases h1 : s.get k with _ | ⟨l, s1⟩
    · rw [h1] at h; cases h
    · rw [h1] at h
      simp only [Option.bind_some] at h
      rcases h2 : Subs.getAll ks s1 with _ | ⟨ls2, s2⟩
      · rw [h2] at h; cases h
      · rw [h2] at h
        simp only [Option.bind_some, Option.some.injEq, Prod.mk.injEq] at h
        obtain ⟨rfl, rfl⟩ := h
        obtain ⟨i1, e1, l1, n1⟩ := get_spec h1 (hk k (by simp)) hi
        have hk' : ∀ k ∈ ks, Gen cout k ∨ s1.look k ≠ none := by
          intro k' hk'
          rcases hk k' (by simp [hk']) with h | h
          · exact Or.inl h
          · obtain ⟨x, hx⟩ := Option.ne_none_iff_exists'.1 h
            exact Or.inr (by rw [e1 _ _ hx]; simp)
        obtain ⟨i2, e2, l2, n2⟩ := getAll_spec h2 hk' i1
        refine ⟨i2, e1.trans e2, ?_, ?_⟩
        · simp only [List.map_cons, l2, e2 _ _ l1]
        · intro k' l' e
          rcases n2 k' l' e with h | h
          · exact Or.inl (by simp [h])
          · rcases n1 k' l' h with h | h
            · exact Or.inl (by simp [h])
            · exact Or.inr h

theorem getAlls_spec {cout : List Letter} : ∀ {kss : List (List Key)} {s s' : Subs} {lss : List (List Letter)},
    Subs.getAlls kss s = some (lss, s') → (∀ k ∈ kss.flatten, Gen cout k ∨ s.look k ≠ none) → Inv cout s →
    Inv cout s' ∧ Ext s s' ∧ lss.map (·.map some) = kss.map (·.map s'.look) ∧
      ∀ k' l', s'.look k' = some l' → k' ∈ kss.flatten ∨ s.look k' = some l'
  | [], s, s', ls, h, _, hi => by
    simp only [Subs.getAlls, Option.some.injEq, Prod.mk.injEq] at h
    obtain ⟨rfl, rfl⟩ := h
    exact ⟨hi, fun _ _ e => e, rfl, fun _ _ e => Or.inr e⟩
  | ks :: kss, s, s', lss, h, hk, hi => by
    simp only [Subs.getAlls] at h
    rcases h1 : Subs.getAll ks s with _ | ⟨ls, s1⟩
    · rw [h1] at h; cases h
    · rw [h1] at h
      simp only [Option.bind_some] at h
      rcases h2 : Subs.getAlls kss s1 with _ | ⟨lss2, s2⟩
      · rw [h2] at h; cases h
      · rw [h2] at h
        simp only [Option.bind_some, Option.some.injEq, Prod.mk.injEq] at h
        obtain ⟨rfl, rfl⟩ := h
        obtain ⟨i1, e1, l1, n1⟩ := getAll_spec h1
          (fun k h => hk k (by simp only [List.flatten_cons, List.mem_append]; exact Or.inl h)) hi
        have hk' : ∀ k ∈ kss.flatten, Gen cout k ∨ s1.look k ≠ none := by
          intro k' hk'
          rcases hk k' (by simp only [List.flatten_cons, List.mem_append]; exact Or.inr hk') with h | h
          · exact Or.inl h
          · obtain ⟨x, hx⟩ := Option.ne_none_iff_exists'.1 h
            exact Or.inr (by rw [e1 _ _ hx]; simp)
        obtain ⟨i2, e2, l2, n2⟩ := getAlls_spec h2 hk' i1
        refine ⟨i2, e1.trans e2, ?_, ?_⟩
        · simp only [List.map_cons, l2, List.cons.injEq, and_true]
          rw [l1]
          apply List.map_congr_left
          intro k hk
          have : s1.look k ∈ ls.map some := by rw [l1]; exact List.mem_map_of_mem hk
          obtain ⟨x, _, hx⟩ := List.mem_map.1 this
          rw [← hx, e2 _ _ hx.symm]
        · intro k' l' e
          simp only [List.flatten_cons, List.mem_append]
          rcases n2 k' l' e with h | h
          · exact Or.inl (Or.inr h)
          · rcases n1 k' l' h with h | h
            · exact Or.inl (Or.inl h)
            · exact Or.inr h

theorem update_spec {cout : List Letter} : ∀ {cps : List (Letter × Letter)} {s s' : Subs},
    Subs.update cps s = some s' → (cps.map Prod.fst).Nodup → (∀ cp ∈ cps, cp.1 ∈ cout) →
    (∀ cp ∈ cps, s.look (.child cp.1) = none) → Inv cout s →
    Inv cout s' ∧ Ext s s' ∧
      (∀ cp ∈ cps, ∃ l, s'.look (.child cp.1) = some l ∧ s'.look (.par cp.2) = some l)
  | [], s, s', h, _, _, _, hi => by
    simp only [Subs.update, Option.some.injEq] at h
    subst h
    exact ⟨hi, fun _ _ e => e, by simp⟩
  | (c, p) :: cps, s, s', h, hn, hc, hl, hi => by
    simp only [Subs.update] at h
    rcases h1 : s.get (.par p) with _ | ⟨l, s1⟩
    · rw [h1] at h; cases h
    · rw [h1] at h
      simp only [Option.bind_some] at h
      obtain ⟨i1, e1, l1, n1⟩ := get_spec (cout := cout) h1 (Or.inl trivial) hi
      have hcn : s1.look (.child c) = none := by
        rcases hx : s1.look (.child c) with _ | x
        · rfl
        · rcases n1 _ _ hx with h | h
          · cases h
          · rw [hl (c, p) (by simp)] at h; cases h
      have look' : ∀ k', Subs.look ⟨(.child c, l) :: s1.map, s1.next⟩ k' =
          if k' = .child c then some l else s1.look k' := fun k' => look_cons ..
      have e2 : Ext s1 ⟨(.child c, l) :: s1.map, s1.next⟩ := by
        intro k' l' e
        rw [look', if_neg]
        · exact e
        · rintro rfl; rw [hcn] at e; cases e
      have i2 : Inv cout ⟨(.child c, l) :: s1.map, s1.next⟩ := by
        refine ⟨?_, ?_, ?_⟩
        · intro k' l' e
          rw [look'] at e
          split at e
          · injection e with e; subst e; exact i1.lt _ _ l1
          · exact i1.lt k' l' e
        · intro a b l' ha hb ea eb
          rw [look', if_neg (by rintro rfl; exact ha (hc (c, p) (by simp)))] at ea
          rw [look', if_neg (by rintro rfl; exact hb (hc (c, p) (by simp)))] at eb
          exact i1.inj a b l' ha hb ea eb
        · intro c' l' hc' e
          rw [look'] at e
          split at e
          · injection e with e; subst e
            exact ⟨p, e2 _ _ l1⟩
          · obtain ⟨q, hq⟩ := i1.link c' l' hc' e
            exact ⟨q, e2 _ _ hq⟩
      simp only [List.map_cons, List.nodup_cons] at hn
      obtain ⟨i3, e3, l3⟩ := update_spec h hn.2 (fun cp h => hc cp (by simp [h])) (by
        intro cp hcp
        rw [look', if_neg]
        · rcases hx : s1.look (.child cp.1) with _ | x
          · rfl
          · rcases n1 _ _ hx with h | h
            · cases h
            · rw [hl cp (by simp [hcp])] at h; cases h
        · rintro ⟨e⟩
          exact hn.1 (List.mem_map_of_mem hcp)) i2
      refine ⟨i3, (e1.trans e2).trans e3, ?_⟩
      intro cp hcp
      rcases List.mem_cons.1 hcp with rfl | hcp
      · exact ⟨l, e3 _ _ (by rw [look', if_pos rfl]), e3 _ _ (e2 _ _ l1)⟩
      · exact l3 cp hcp

theorem map_of_some {α β : Type} [Inhabited β] {f : α → Option β} {ks : List α} {ls : List β}
    (h : ls.map some = ks.map f) : ls = ks.map (fun k => (f k).getD default) := by
  have : (ls.map some).map (fun o => o.getD default) = (ks.map f).map (fun o => o.getD default) := by rw [h]
  simpa [Function.comp_def] using this

/-- What `compose_einsums` returns. -/
theorem compose_spec {parent child f : Formula} {n : ℕ} (h : compose parent n child = some f)
    (hn : child.out.Nodup) :
    ∃ left old right ρp ρc, parent.ins = left ++ old :: right ∧ left.length = n ∧
      Renaming (left ++ old :: right).flatten child.ins.flatten child.out old ρp ρc ∧
      (∀ a ∈ parent.out ++ (left ++ old :: right).flatten,
        ∀ b ∈ parent.out ++ (left ++ old :: right).flatten, ρp a = ρp b → a = b) ∧
      f = ⟨left.map (·.map ρp) ++ child.ins.map (·.map ρc) ++ right.map (·.map ρp), parent.out.map ρp⟩ := by
  unfold compose at h
  rcases ho : parent.ins[n]? with _ | old
  · rw [ho] at h; cases h
  rw [ho] at h
  dsimp only at h
  split at h
  swap
  · cases h
  rename_i hlen
  obtain ⟨hnlt, hget⟩ := List.getElem?_eq_some_iff.1 ho
  have hsplit : parent.ins = parent.ins.take n ++ old :: parent.ins.drop (n + 1) := by
    rw [← hget, List.getElem_cons_drop, List.take_append_drop]
  have hleft : (parent.ins.take n).length = n := by simp [Nat.le_of_lt hnlt]
  generalize hL : parent.ins.take n = left at *
  generalize hR : parent.ins.drop (n + 1) = right at *
  rcases h1 : Subs.getAlls ((left ++ right).map (·.map .par)) ⟨[], 0⟩ with _ | ⟨lss, s1⟩
  · rw [h1] at h; cases h
  rw [h1] at h
  simp only [Option.bind_some] at h
  rcases h2 : Subs.getAll (parent.out.map .par) s1 with _ | ⟨os, s2⟩
  · rw [h2] at h; cases h
  rw [h2] at h
  simp only [Option.bind_some] at h
  rcases h3 : Subs.update (child.out.zip old) s2 with _ | s3
  · rw [h3] at h; cases h
  rw [h3] at h
  simp only [Option.bind_some] at h
  rcases h4 : Subs.getAlls (child.ins.map (·.map .child)) s3 with _ | ⟨css, s4⟩
  · rw [h4] at h; cases h
  rw [h4] at h
  simp only [Option.bind_some, Option.some.injEq] at h
  have i0 : Inv child.out ⟨[], 0⟩ :=
    ⟨(by intro k l e; cases e), (by intro k k' l _ _ e; cases e), (by intro c l _ e; cases e)⟩
  obtain ⟨i1, _, l1, n1⟩ := getAlls_spec (cout := child.out) h1 (by
    intro k hk
    left
    simp only [List.mem_flatten, List.mem_map] at hk
    obtain ⟨_, ⟨s, _, rfl⟩, hk⟩ := hk
    obtain ⟨l, _, rfl⟩ := List.mem_map.1 hk
    trivial) i0
  obtain ⟨i2, e2, l2, n2⟩ := getAll_spec (cout := child.out) h2 (by
    intro k hk
    left
    obtain ⟨l, _, rfl⟩ := List.mem_map.1 hk
    trivial) i1
  have nochild : ∀ c, s2.look (.child c) = none := by
    intro c
    rcases hx : s2.look (.child c) with _ | x
    · rfl
    · rcases n2 _ _ hx with h | h
      · simp at h
      · rcases n1 _ _ h with h | h
        · simp only [List.mem_flatten, List.mem_map] at h
          obtain ⟨_, ⟨s, _, rfl⟩, hk⟩ := h
          simp at hk
        · cases h
  have hfst : (child.out.zip old).map Prod.fst = child.out :=
    List.map_fst_zip (Nat.le_of_eq hlen)
  have hsnd : (child.out.zip old).map Prod.snd = old :=
    List.map_snd_zip (Nat.le_of_eq hlen.symm)
  obtain ⟨i3, e3, l3⟩ := update_spec (cout := child.out) h3 (by rw [hfst]; exact hn)
    (fun cp h => (List.of_mem_zip h).1) (fun cp _ => nochild _) i2
  obtain ⟨i4, e4, l4, _⟩ := getAlls_spec (cout := child.out) h4 (by
    intro k hk
    simp only [List.mem_flatten, List.mem_map] at hk
    obtain ⟨_, ⟨s, _, rfl⟩, hk⟩ := hk
    obtain ⟨c, _, rfl⟩ := List.mem_map.1 hk
    by_cases hc : c ∈ child.out
    · right
      rw [← hfst] at hc
      obtain ⟨cp, hcp, rfl⟩ := List.mem_map.1 hc
      obtain ⟨l, hl, _⟩ := l3 cp hcp
      rw [hl]; simp
    · exact Or.inl hc) i3
  let ρp : Letter → Letter := fun l => (s4.look (.par l)).getD default
  let ρc : Letter → Letter := fun l => (s4.look (.child l)).getD default
  have E1 : Ext s1 s4 := (e2.trans e3).trans e4
  -- known keys
  have knownLR : ∀ l ∈ (left ++ right).flatten, s1.look (.par l) = some (ρp l) := by
    intro l hl
    obtain ⟨s, hs, hl⟩ := List.mem_flatten.1 hl
    have : (s.map Key.par).map s1.look ∈ lss.map (·.map some) := by
      rw [l1, List.map_map]; exact List.mem_map_of_mem (f := fun s => (s.map Key.par).map s1.look) hs
    obtain ⟨ls, _, hls⟩ := List.mem_map.1 this
    have : s1.look (.par l) ∈ ls.map some := by
      rw [hls, List.map_map]; exact List.mem_map_of_mem (f := fun l => s1.look (.par l)) hl
    obtain ⟨x, _, hx⟩ := List.mem_map.1 this
    have hx' := E1 _ _ hx.symm
    simp only [ρp, hx', Option.getD_some]; exact hx.symm
  have knownO : ∀ l ∈ parent.out, s2.look (.par l) = some (ρp l) := by
    intro l hl
    have : s2.look (.par l) ∈ os.map some := by
      rw [l2, List.map_map]; exact List.mem_map_of_mem (f := fun l => s2.look (.par l)) hl
    obtain ⟨x, _, hx⟩ := List.mem_map.1 this
    have hx' := (e3.trans e4) _ _ hx.symm
    simp only [ρp, hx', Option.getD_some]; exact hx.symm
  have knownOld : ∀ q ∈ old, s4.look (.par q) = some (ρp q) := by
    intro q hq
    rw [← hsnd] at hq
    obtain ⟨cp, hcp, rfl⟩ := List.mem_map.1 hq
    obtain ⟨l, _, hl⟩ := l3 cp hcp
    have hx' := e4 _ _ hl
    simp only [ρp, hx', Option.getD_some]
  have knownP : ∀ l ∈ parent.out ++ (left ++ old :: right).flatten, s4.look (.par l) = some (ρp l) := by
    intro l hl
    simp only [List.flatten_append, List.flatten_cons, List.mem_append] at hl
    rcases hl with hl | hl | hl | hl
    · exact (e3.trans e4) _ _ (knownO l hl)
    · exact E1 _ _ (knownLR l (by simp only [List.flatten_append, List.mem_append]; exact Or.inl hl))
    · exact knownOld l hl
    · exact E1 _ _ (knownLR l (by simp only [List.flatten_append, List.mem_append]; exact Or.inr hl))
  have knownC : ∀ l ∈ child.ins.flatten, s4.look (.child l) = some (ρc l) := by
    intro l hl
    obtain ⟨s, hs, hl⟩ := List.mem_flatten.1 hl
    have : (s.map Key.child).map s4.look ∈ css.map (·.map some) := by
      rw [l4, List.map_map]; exact List.mem_map_of_mem (f := fun s => (s.map Key.child).map s4.look) hs
    obtain ⟨ls, _, hls⟩ := List.mem_map.1 this
    have : s4.look (.child l) ∈ ls.map some := by
      rw [hls, List.map_map]; exact List.mem_map_of_mem (f := fun l => s4.look (.child l)) hl
    obtain ⟨x, _, hx⟩ := List.mem_map.1 this
    simp only [ρc, ← hx, Option.getD_some]
  have injP : ∀ a ∈ parent.out ++ (left ++ old :: right).flatten,
      ∀ b ∈ parent.out ++ (left ++ old :: right).flatten, ρp a = ρp b → a = b := by
    intro a ha b hb e
    have := i4.inj (.par a) (.par b) (ρp a) trivial trivial (knownP a ha) (by rw [e]; exact knownP b hb)
    injection this
  refine ⟨left, old, right, ρp, ρc, hsplit, hleft, ⟨?_, ?_, ?_, ?_⟩, injP, ?_⟩
  · intro a ha b hb e
    exact injP a (List.mem_append_right _ ha) b (List.mem_append_right _ hb) e
  · intro a ha hac b hb e
    have ka := knownC a ha
    have kb := knownC b hb
    rw [← e] at kb
    by_cases hbc : b ∈ child.out
    · obtain ⟨p, hp⟩ := i4.link b _ hbc kb
      have := i4.inj (.child a) (.par p) _ hac trivial ka hp
      cases this
    · have := i4.inj (.child a) (.child b) _ hac hbc ka kb
      injection this
  · intro a ha hac b hb e
    have ka := knownC a ha
    have kb := knownP b (List.mem_append_right _ hb)
    rw [← e] at kb
    have := i4.inj (.child a) (.par b) _ hac trivial ka kb
    cases this
  · have : ∀ cp ∈ child.out.zip old, ρc cp.1 = ρp cp.2 := by
      intro cp hcp
      obtain ⟨l, h1, h2⟩ := l3 cp hcp
      simp only [ρc, ρp, e4 _ _ h1, e4 _ _ h2]
    calc child.out.map ρc = ((child.out.zip old).map Prod.fst).map ρc := by rw [hfst]
      _ = ((child.out.zip old).map Prod.snd).map ρp := by
        rw [List.map_map, List.map_map]
        exact List.map_congr_left this
      _ = old.map ρp := by rw [hsnd]
  · rw [← h]
    have hlss : lss = (left ++ right).map (·.map ρp) := by
      have hlen1 : lss.length = (left ++ right).length := by
        have := congrArg List.length l1; simpa using this
      have hm : lss.map (·.map some) = ((left ++ right).map (·.map ρp)).map (·.map some) := by
        rw [l1, List.map_map, List.map_map]
        apply List.map_congr_left
        intro s hs
        simp only [Function.comp_def, List.map_map]
        apply List.map_congr_left
        intro l hl
        exact knownLR l (List.mem_flatten.2 ⟨s, hs, hl⟩)
      exact List.map_injective_iff.2 (List.map_injective_iff.2 (Option.some_injective _)) hm
    have hos : os = parent.out.map ρp := by
      have hm : os.map some = (parent.out.map ρp).map some := by
        rw [l2, List.map_map, List.map_map]
        apply List.map_congr_left
        intro l hl
        exact knownO l hl
      exact List.map_injective_iff.2 (Option.some_injective _) hm
    have hcss : css = child.ins.map (·.map ρc) := by
      have hm : css.map (·.map some) = (child.ins.map (·.map ρc)).map (·.map some) := by
        rw [l4, List.map_map, List.map_map]
        apply List.map_congr_left
        intro s hs
        simp only [Function.comp_def, List.map_map]
        apply List.map_congr_left
        intro l hl
        exact knownC l (List.mem_flatten.2 ⟨s, hs, hl⟩)
      exact List.map_injective_iff.2 (List.map_injective_iff.2 (Option.some_injective _)) hm
    subst hlss hos hcss
    congr 1
    rw [List.map_append, List.take_append_of_le_length (by simp [hleft]),
      List.drop_append_of_le_length (by simp [hleft]), List.take_of_length_le (by simp [hleft]),
      List.drop_of_length_le (by simp [hleft]), List.nil_append]

/-! ### When `compose_einsums` succeeds -/

/-- The letters drawn so far belong to distinct keys of `K`. -/
def Cnt (K : Finset Key) (s : Subs) : Prop :=
  ∃ G : Finset Key, G ⊆ K ∧ G.card = s.next ∧ ∀ k ∈ G, s.look k ≠ none

theorem get_succeeds {K : Finset Key} (hK : K.card ≤ 52) {s : Subs} (hc : Cnt K s) {k : Key}
    (hk : k ∈ K ∨ s.look k ≠ none) :
    ∃ l s', s.get k = some (l, s') ∧ Cnt K s' ∧ (∀ k', s.look k' ≠ none → s'.look k' ≠ none) := by
  unfold Subs.get
  rcases hl : s.map.lookup k with _ | x
  · obtain ⟨G, h1, h2, h3⟩ := hc
    have hkK : k ∈ K := hk.resolve_right (fun h => h hl)
    have hkG : k ∉ G := fun h => h3 k h hl
    have hsub : insert k G ⊆ K := Finset.insert_subset hkK h1
    have hcard := Finset.card_le_card hsub
    rw [Finset.card_insert_of_notMem hkG, h2] at hcard
    have hn : s.next < 52 := by omega
    dsimp only
    rw [dif_pos hn]
    refine ⟨_, _, rfl, ⟨insert k G, hsub, by rw [Finset.card_insert_of_notMem hkG, h2], ?_⟩, ?_⟩
    · intro k' hk'
      rw [look_cons]
      split
      · simp
      · rename_i hne
        exact h3 k' ((Finset.mem_insert.1 hk').resolve_left hne)
    · intro k' hk'
      rw [look_cons]
      split
      · simp
      · exact hk'
  · exact ⟨x, s, rfl, hc, fun _ h => h⟩

theorem getAll_succeeds {K : Finset Key} (hK : K.card ≤ 52) : ∀ {ks : List Key} {s : Subs}, Cnt K s →
    (∀ k ∈ ks, k ∈ K ∨ s.look k ≠ none) →
    ∃ ls s', Subs.getAll ks s = some (ls, s') ∧ Cnt K s' ∧ (∀ k', s.look k' ≠ none → s'.look k' ≠ none)
  | [], s, hc, _ => ⟨[], s, rfl, hc, fun _ h => h⟩
  | k :: ks, s, hc, hk => by
    obtain ⟨l, s1, h1, c1, m1⟩ := get_succeeds hK hc (hk k (by simp))
    obtain ⟨ls, s2, h2, c2, m2⟩ := getAll_succeeds hK (ks := ks) c1 (fun k' h' =>
      (hk k' (by simp [h'])).imp id (m1 k'))
    refine ⟨l :: ls, s2, ?_, c2, fun k' h' => m2 k' (m1 k' h')⟩
    simp only [Subs.getAll, h1, h2, Option.bind_some]

theorem getAlls_succeeds {K : Finset Key} (hK : K.card ≤ 52) : ∀ {kss : List (List Key)} {s : Subs},
    Cnt K s → (∀ k ∈ kss.flatten, k ∈ K ∨ s.look k ≠ none) →
    ∃ lss s', Subs.getAlls kss s = some (lss, s') ∧ Cnt K s' ∧ (∀ k', s.look k' ≠ none → s'.look k' ≠ none)
  | [], s, hc, _ => ⟨[], s, rfl, hc, fun _ h => h⟩
  | ks :: kss, s, hc, hk => by
    obtain ⟨l, s1, h1, c1, m1⟩ := getAll_succeeds hK (ks := ks) hc (fun k h => hk k (by
      simp only [List.flatten_cons, List.mem_append]; exact Or.inl h))
    obtain ⟨ls, s2, h2, c2, m2⟩ := getAlls_succeeds hK (kss := kss) c1 (fun k' h' =>
      (hk k' (by simp only [List.flatten_cons, List.mem_append]; exact Or.inr h')).imp id (m1 k'))
    refine ⟨l :: ls, s2, ?_, c2, fun k' h' => m2 k' (m1 k' h')⟩
    simp only [Subs.getAlls, h1, h2, Option.bind_some]

theorem update_succeeds {K : Finset Key} (hK : K.card ≤ 52) : ∀ {cps : List (Letter × Letter)} {s : Subs},
    Cnt K s → (∀ cp ∈ cps, Key.par cp.2 ∈ K) →
    ∃ s', Subs.update cps s = some s' ∧ Cnt K s' ∧ (∀ k', s.look k' ≠ none → s'.look k' ≠ none) ∧
      ∀ cp ∈ cps, s'.look (.child cp.1) ≠ none
  | [], s, hc, _ => ⟨s, rfl, hc, fun _ h => h, by simp⟩
  | (c, p) :: cps, s, hc, hk => by
    obtain ⟨l, s1, h1, c1, m1⟩ := get_succeeds hK (k := .par p) hc (Or.inl (hk (c, p) (by simp)))
    have m2 : ∀ k', s1.look k' ≠ none → Subs.look ⟨(.child c, l) :: s1.map, s1.next⟩ k' ≠ none := by
      intro k' h'
      rw [look_cons]
      split
      · simp
      · exact h'
    have c2 : Cnt K ⟨(.child c, l) :: s1.map, s1.next⟩ := by
      obtain ⟨G, g1, g2, g3⟩ := c1
      exact ⟨G, g1, g2, fun k' h' => m2 k' (g3 k' h')⟩
    obtain ⟨s', h3, c3, m3, l3⟩ := update_succeeds hK (cps := cps) c2 (fun cp h => hk cp (by simp [h]))
    refine ⟨s', ?_, c3, fun k' h' => m3 k' (m2 k' (m1 k' h')), ?_⟩
    · simp only [Subs.update, h1, Option.bind_some]; exact h3
    · intro cp hcp
      rcases List.mem_cons.1 hcp with rfl | hcp
      · exact m3 _ (by rw [look_cons, if_pos rfl]; simp)
      · exact l3 cp hcp

/-- `compose_einsums` succeeds when the result needs at most 52 index names. -/
theorem compose_returns {parent child : Formula} {n : ℕ} {old : List Letter}
    (ho : parent.ins[n]? = some old) (hlen : child.out.length = old.length)
    (hK : (parent.ins.flatten ++ parent.out).toFinset.card +
      (child.ins.flatten.filter (· ∉ child.out)).toFinset.card ≤ 52) :
    ∃ f, compose parent n child = some f := by
  let K : Finset Key := (parent.ins.flatten ++ parent.out).toFinset.image Key.par ∪
    (child.ins.flatten.filter (· ∉ child.out)).toFinset.image Key.child
  have hK' : K.card ≤ 52 := by
    refine (Finset.card_union_le _ _).trans ?_
    exact (Nat.add_le_add Finset.card_image_le Finset.card_image_le).trans hK
  have parK : ∀ l, l ∈ parent.ins.flatten ∨ l ∈ parent.out → Key.par l ∈ K := by
    intro l hl
    refine Finset.mem_union_left _ (Finset.mem_image_of_mem _ ?_)
    rw [List.mem_toFinset, List.mem_append]; exact hl
  obtain ⟨p, s1, h1, c1, m1⟩ := getAlls_succeeds hK'
    (kss := (parent.ins.take n ++ parent.ins.drop (n + 1)).map (·.map .par)) (s := ⟨[], 0⟩)
    ⟨∅, by simp, rfl, by simp⟩ (by
      intro k hk
      left
      simp only [List.mem_flatten, List.mem_map] at hk
      obtain ⟨_, ⟨s, hs, rfl⟩, hk⟩ := hk
      obtain ⟨l, hl, rfl⟩ := List.mem_map.1 hk
      refine parK l (Or.inl (List.mem_flatten.2 ⟨s, ?_, hl⟩))
      rcases List.mem_append.1 hs with h | h
      · exact List.mem_of_mem_take h
      · exact List.mem_of_mem_drop h)
  obtain ⟨o, s2, h2, c2, m2⟩ := getAll_succeeds hK' (ks := parent.out.map .par) c1 (by
      intro k hk
      left
      obtain ⟨l, hl, rfl⟩ := List.mem_map.1 hk
      exact parK l (Or.inr hl))
  obtain ⟨s3, h3, c3, m3, l3⟩ := update_succeeds hK' (cps := child.out.zip old) c2 (by
      intro cp hcp
      refine parK _ (Or.inl (List.mem_flatten.2 ⟨old, List.mem_of_getElem? ho, (List.of_mem_zip hcp).2⟩)))
  have hfst : (child.out.zip old).map Prod.fst = child.out :=
    List.map_fst_zip (Nat.le_of_eq hlen)
  obtain ⟨c, s4, h4, _, _⟩ := getAlls_succeeds hK' (kss := child.ins.map (·.map .child)) c3 (by
      intro k hk
      simp only [List.mem_flatten, List.mem_map] at hk
      obtain ⟨_, ⟨s, hs, rfl⟩, hk⟩ := hk
      obtain ⟨l, hl, rfl⟩ := List.mem_map.1 hk
      by_cases hc : l ∈ child.out
      · right
        rw [← hfst] at hc
        obtain ⟨cp, hcp, rfl⟩ := List.mem_map.1 hc
        exact l3 cp hcp
      · left
        refine Finset.mem_union_right _ (Finset.mem_image_of_mem _ ?_)
        rw [List.mem_toFinset, List.mem_filter]
        exact ⟨List.mem_flatten.2 ⟨s, hs, hl⟩, by simpa using hc⟩)
  unfold compose
  rw [ho]
  dsimp only
  rw [if_pos hlen]
  simp only [h1, h2, h3, h4, Option.bind_some]
  exact ⟨_, rfl⟩

end Verif.Autoconj
