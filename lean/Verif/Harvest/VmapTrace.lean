/-
Executions of a vmapped program, lane by lane.
-/
import Verif.Harvest.VmapLemmas

namespace Verif.Harvest

/-- What the log `l` leaves for every name is lane `i` of what the log `L` of the vmapped program leaves. -/
def LaneLog {V : Type} {n : Nat} (S : Settings) (i : Fin n) (l : Log V) (L : Log (Fin n → V)) : Prop :=
  ∀ k, collect S k l = (collect S k L).map (·.lane i)

theorem LaneLog.append {V : Type} {n : Nat} {S : Settings} {i : Fin n} {l l' : Log V} {L L' : Log (Fin n → V)}
    (h : LaneLog S i l L) (h' : LaneLog S i l' L') : LaneLog S i (l ++ l') (L ++ L') := by
  intro k
  rw [collect_append, collect_append, h k, h' k]
  cases collect S k L' <;> rfl

theorem laneLog_iters {V : Type} {n : Nat} {S : Settings} {i : Fin n} {ls : List (Log V)} {Ls : List (Log (Fin n → V))}
    (h : List.Forall₂ (fun L l => LaneLog S i l L) Ls ls) (k : String) :
    collectIters S k ls = (collectIters S k Ls).map (·.map (·.lane i)) := by
  induction h with
  | nil => rfl
  | cons h _ ih => simp only [collectIters, List.map_cons, ih, h k]

theorem scanM_lane {K X Y K' X' Y' : Type} (κ : K → K') (φ : X → X') {TY : Y → Y' → Prop}
    {f : K × X → Except RErr (K × Y)} {g : K' × X' → Except RErr (K' × Y')}
    (h : ∀ k x k1 y, f (k, x) = .ok (k1, y) → ∃ y', g (κ k, φ x) = .ok (κ k1, y') ∧ TY y y') :
    ∀ (xs : List X) (k k1 : K) (ys : List Y), scanM f k xs = .ok (k1, ys) →
      ∃ ys', scanM g (κ k) (xs.map φ) = .ok (κ k1, ys') ∧ List.Forall₂ TY ys ys'
  | [], k, k1, ys, hs => by
    simp only [scanM, Except.ok.injEq, Prod.mk.injEq] at hs
    obtain ⟨rfl, rfl⟩ := hs
    exact ⟨[], rfl, .nil⟩
  | x :: xs, k, k1, ys, hs => by
    simp only [scanM, List.map_cons] at hs ⊢
    rcases h1 : f (k, x) with e | ⟨k2, y⟩ <;> rw [h1] at hs
    · simp at hs
    simp only [except_bind_ok] at hs
    rcases h2 : scanM f k2 xs with e | ⟨k3, ys2⟩ <;> rw [h2] at hs
    · simp at hs
    simp only [except_bind_ok, except_pure, Except.ok.injEq, Prod.mk.injEq] at hs
    obtain ⟨rfl, rfl⟩ := hs
    obtain ⟨y', hg, hy⟩ := h k x k2 y h1
    obtain ⟨ys', hg2, hys⟩ := scanM_lane κ φ h xs k2 k3 ys2 h2
    exact ⟨y' :: ys', by simp only [hg, except_bind_ok, hg2, except_pure], .cons hy hys⟩

theorem scanDir_lane {K X Y K' X' Y' : Type} (rev : Bool) (κ : K → K') (φ : X → X') {TY : Y → Y' → Prop}
    {f : K × X → Except RErr (K × Y)} {g : K' × X' → Except RErr (K' × Y')}
    (h : ∀ k x k1 y, f (k, x) = .ok (k1, y) → ∃ y', g (κ k, φ x) = .ok (κ k1, y') ∧ TY y y')
    (xs : List X) (k k1 : K) (ys : List Y) (hs : scanDir rev f k xs = .ok (k1, ys)) :
    ∃ ys', scanDir rev g (κ k) (xs.map φ) = .ok (κ k1, ys') ∧ List.Forall₂ TY ys ys' := by
  cases rev
  · exact scanM_lane κ φ h xs k k1 ys hs
  · simp only [scanDir, if_true] at hs ⊢
    rcases h1 : scanM f k xs.reverse with e | r1 <;> rw [h1] at hs <;> simp at hs
    obtain ⟨rfl, rfl⟩ := hs
    obtain ⟨ys', h2, h3⟩ := scanM_lane κ φ h xs.reverse k r1.1 r1.2 h1
    exact ⟨ys'.reverse, by rw [← List.map_reverse, h2]; rfl, forall₂_reverse h3⟩

theorem transposed_lane {X : Type} {n : Nat} {xs : Fin (n + 1) → List X}
    (h : ∀ i, (xs i).length = (xs 0).length) (i : Fin (n + 1)) : (transposed xs).map (fun x => x i) = xs i := by
  apply List.ext_getElem?
  intro t
  simp only [transposed, List.getElem?_map, List.getElem?_mapIdx, Option.map_map]
  by_cases ht : t < (xs 0).length
  · have ht' : t < (xs i).length := by rw [h i]; exact ht
    simp [List.getElem?_eq_getElem ht, List.getElem?_eq_getElem ht']
  · have ht' : ¬ t < (xs i).length := by rw [h i]; exact ht
    simp [List.getElem?_eq_none (Nat.le_of_not_lt ht), List.getElem?_eq_none (Nat.le_of_not_lt ht')]

theorem loopT_lane {V V' K K' : Type} (κ : K → K') {TL : Log V → Log V' → Prop} {c : K → Except RErr (Bool × Log V)}
    {c' : K' → Except RErr (Bool × Log V')} {b : K → Except RErr (K × Log V)} {b' : K' → Except RErr (K' × Log V')}
    (hc : ∀ k t l, c k = .ok (t, l) → ∃ l', c' (κ k) = .ok (t, l'))
    (hb : ∀ k k1 l, b k = .ok (k1, l) → ∃ l', b' (κ k) = .ok (κ k1, l') ∧ TL l l') :
    ∀ (m : Nat) (k : K) r, loopT c b m k = .ok r →
      ∃ ls lt, loopT c' b' m (κ k) = .ok (κ r.1, ls, lt) ∧ List.Forall₂ TL r.2.1 ls := by
  intro m
  induction m with
  | zero => intro k r h; simp [loopT] at h
  | succ m ih =>
    intro k r h
    simp only [loopT] at h ⊢
    rcases hck : c k with e | ⟨t, lt⟩ <;> rw [hck] at h
    · simp at h
    obtain ⟨l, hl⟩ := hc k t lt hck
    rw [hl]
    cases t
    · simp only [except_bind_ok, Bool.false_eq_true, if_false, except_pure, Except.ok.injEq] at h ⊢
      subst h
      exact ⟨[], l, rfl, .nil⟩
    · simp only [except_bind_ok, if_true] at h ⊢
      rcases h1 : b k with e | s <;> rw [h1] at h
      · simp at h
      simp only [except_bind_ok] at h
      rcases h2 : loopT c b m s.1 with e | u <;> rw [h2] at h
      · simp at h
      simp only [except_bind_ok, except_pure, Except.ok.injEq] at h
      subst h
      obtain ⟨l1, e1, hl1⟩ := hb k s.1 s.2 h1
      obtain ⟨ls, lt', e2, hls⟩ := ih _ _ h2
      exact ⟨l1 :: ls, l ++ lt', by simp only [e1, except_bind_ok, e2, except_pure], .cons hl1 hls⟩

/-- A batched loop that runs until all lanes are done: a lane that is done keeps its carry. -/
theorem loopT_keep {V K K' : Type} (κ : K → K') (t? : K' → Bool → Prop) {c : K → Except RErr (Bool × Log V)}
    {b : K → Except RErr (K × Log V)} (hb : ∀ k k1 l, b k = .ok (k1, l) → t? (κ k) false → κ k1 = κ k) :
    ∀ (m : Nat) (k : K) r, loopT c b m k = .ok r → t? (κ k) false → κ r.1 = κ k := by
  intro m
  induction m with
  | zero => intro k r h; simp [loopT] at h
  | succ m ih =>
    intro k r h ht
    simp only [loopT] at h
    rcases hck : c k with e | ⟨t, lt⟩ <;> rw [hck] at h
    · simp at h
    cases t
    · simp only [except_bind_ok, Bool.false_eq_true, if_false, except_pure, Except.ok.injEq] at h
      subst h
      rfl
    · simp only [except_bind_ok, if_true] at h
      rcases h1 : b k with e | s <;> rw [h1] at h
      · simp at h
      simp only [except_bind_ok] at h
      rcases h2 : loopT c b m s.1 with e | u <;> rw [h2] at h
      · simp at h
      simp only [except_bind_ok, except_pure, Except.ok.injEq] at h
      subst h
      have e := hb k s.1 s.2 h1 ht
      have := ih s.1 u h2 (by rw [e]; exact ht)
      rw [← e]
      exact this

/-- Each lane of a batched loop runs its own loop. -/
theorem loopT_until {V V' K K' : Type} (κ : K → K') {c : K → Except RErr (Bool × Log V)}
    {c' : K' → Except RErr (Bool × Log V')} {b : K → Except RErr (K × Log V)} {b' : K' → Except RErr (K' × Log V')}
    (hc : ∀ k t l, c k = .ok (t, l) → ∃ t' l', c' (κ k) = .ok (t', l') ∧ (t = false → t' = false))
    (hb : ∀ k k1 l, b k = .ok (k1, l) → (∃ l', c' (κ k) = .ok (false, l')) → κ k1 = κ k)
    (hb' : ∀ k k1 l, b k = .ok (k1, l) → (∃ l', c' (κ k) = .ok (true, l')) → ∃ l', b' (κ k) = .ok (κ k1, l')) :
    ∀ (m : Nat) (k : K) r, loopT c b m k = .ok r → ∃ s, loopT c' b' m (κ k) = .ok (κ r.1, s) := by
  intro m
  induction m with
  | zero => intro k r h; simp [loopT] at h
  | succ m ih =>
    intro k r h
    have h0 := h
    simp only [loopT] at h ⊢
    rcases hck : c k with e | ⟨t, lt⟩ <;> rw [hck] at h
    · simp at h
    obtain ⟨t', l, hl, himp⟩ := hc k t lt hck
    rw [hl]
    cases t'
    · simp only [except_bind_ok, Bool.false_eq_true, if_false, except_pure, Except.ok.injEq]
      have := loopT_keep κ (fun k' t => ∃ l', c' k' = .ok (t, l')) hb (m + 1) k r h0 ⟨l, hl⟩
      exact ⟨([], l), by rw [this]⟩
    · cases t
      · simp at himp
      simp only [except_bind_ok, if_true] at h ⊢
      rcases h1 : b k with e | s <;> rw [h1] at h
      · simp at h
      simp only [except_bind_ok] at h
      rcases h2 : loopT c b m s.1 with e | u <;> rw [h2] at h
      · simp at h
      simp only [except_bind_ok, except_pure, Except.ok.injEq] at h
      subst h
      obtain ⟨l1, e1⟩ := hb' k s.1 s.2 h1 ⟨l, hl⟩
      obtain ⟨ls, e2⟩ := ih _ _ h2
      exact ⟨(l1 :: ls.1, l ++ ls.2), by simp only [e1, except_bind_ok, e2, except_pure]⟩

/-- Executing all branches gives the results of each of them. -/
theorem trace_allBranches {V X Y : Type} (fuel : Nat) : ∀ {m : Nat} {br : Fin m → Prog V X Y} {x : X} {ys : Fin m → Y}
    {l : Log V}, trace fuel (allBranches br) x = .ok (ys, l) → ∀ i, ∃ li, trace fuel (br i) x = .ok (ys i, li)
  | 0, _, _, _, _, _, i => i.elim0
  | m + 1, br, x, ys, l, h, i => by
    simp only [allBranches, trace, id] at h
    rcases h1 : trace fuel (br 0) x with e | ⟨y, l1⟩ <;> rw [h1] at h
    · simp at h
    simp only [except_map_ok, except_bind_ok] at h
    rcases h2 : trace fuel (allBranches fun i => br i.succ) x with e | ⟨ys', l2⟩ <;> rw [h2] at h
    · simp at h
    simp only [except_map_ok, except_bind_ok, except_pure, Except.ok.injEq, Prod.mk.injEq] at h
    obtain ⟨rfl, rfl⟩ := h
    cases i using Fin.cases with
    | zero => exact ⟨l1, h1⟩
    | succ i => exact trace_allBranches fuel h2 i

/-- Every lane of an execution of the vmapped program is an execution of the program, and what it leaves is its lane of what
the vmapped program leaves. -/
theorem trace_vm {V A B : Type} {S : Settings} (fuel n : Nat) (p : Prog V A B) : ∀ (fl : Flags p), QuietBatched S p fl →
    Regular S (fun _ => false) p → ∀ (a : Fin (n + 1) → A) (b : Fin (n + 1) → B) (L : Log (Fin (n + 1) → V)),
    trace fuel (vm n p fl) a = .ok (b, L) → ∀ i, ∃ l, trace fuel p (a i) = .ok (b i, l) ∧ LaneLog S i l L := by
  induction p with
  | pure f =>
    intro fl _ _ a b L ht i
    simp only [vm, trace] at ht ⊢
    rcases h1 : allLanes (fun i => f (a i)) with e | b1 <;> rw [h1] at ht <;> simp at ht
    obtain ⟨rfl, rfl⟩ := ht
    refine ⟨[], by rw [allLanes_ok.1 h1 i]; rfl, fun k => rfl⟩
  | seq p q ihp ihq =>
    intro fl h hr a b L ht i
    simp only [vm, trace] at ht ⊢
    rcases h1 : trace fuel (vm n p fl.1) a with e | ⟨b1, L1⟩ <;> rw [h1] at ht
    · simp at ht
    simp only [except_bind_ok] at ht
    rcases h2 : trace fuel (vm n q fl.2) b1 with e | ⟨b2, L2⟩ <;> rw [h2] at ht
    · simp at ht
    simp only [except_bind_ok, except_pure, Except.ok.injEq, Prod.mk.injEq] at ht
    obtain ⟨rfl, rfl⟩ := ht
    obtain ⟨l1, e1, hl1⟩ := ihp _ h.1 hr.1 a b1 L1 h1 i
    obtain ⟨l2, e2, hl2⟩ := ihq _ h.2 hr.2 b1 b2 L2 h2 i
    exact ⟨l1 ++ l2, by simp only [e1, except_bind_ok, e2, except_pure], hl1.append hl2⟩
  | sow tag name mode pre pred post =>
    intro fl h hr a b L ht i
    simp only [vm, trace] at ht ⊢
    generalize hm : allLanes _ = vs at ht
    rcases vs with e | vs <;> simp at ht
    obtain ⟨rfl, rfl⟩ := ht
    have hi := allLanes_ok.1 hm i
    rcases hp : pre (a i) with v | d | vs' | _ <;> rw [hp] at hi <;> simp at hi
    subst hi
    refine ⟨_, rfl, fun k => ?_⟩
    have hr' : S.active tag name = true → (mode = .condClobber ↔ false = true) := hr
    simp only [collect, Ev.collect, Option.none_or]
    by_cases hk : name = k ∧ S.active tag name = true
    · have : mode ≠ .condClobber := by simpa using hr' hk.2
      simp [hk, this, Val.lane]
    · rw [if_neg (fun h => hk ⟨h.1, h.2.1⟩), if_neg (fun h => hk ⟨h.1, h.2.1⟩)]
      rfl
  | nest scope pre body post ih =>
    intro fl h hr a b L ht i
    simp only [vm, trace] at ht ⊢
    rcases h1 : trace fuel (vm n body fl) (fun i => pre (a i)) with e | ⟨b1, L1⟩ <;> rw [h1] at ht <;> simp at ht
    obtain ⟨rfl, rfl⟩ := ht
    obtain ⟨l1, e1, hl1⟩ := ih _ h hr.1 _ b1 L1 h1 i
    refine ⟨_, by rw [e1]; rfl, fun k => ?_⟩
    have hd := declares_vm n body fl h hr.1
    have e : anySite S (sites (vm n body fl)) = anySite S (sites body) := anySite_congr (fun k => by rw [hd k])
    simp only [collect, Ev.collect, Option.none_or, e]
    by_cases hk : scope = k ∧ S.active S.tag scope = true ∧ anySite S (sites body) = true
    · rw [if_pos hk, if_pos hk]
      simp only [Option.map_some, Val.lane, hd]
      congr 2
      funext j
      by_cases hj : (declares S j (sites body)).isSome = true
      · simp only [hj, if_true, laneO, lane_getD, hl1 j]
      · simp only [hj, Bool.false_eq_true, if_false, laneO]
    · rw [if_neg hk, if_neg hk]
      rfl
  | inline pre body post ih =>
    intro fl h hr a b L ht i
    simp only [vm, trace] at ht ⊢
    rcases h1 : trace fuel (vm n body fl) (fun i => pre (a i)) with e | ⟨b1, L1⟩ <;> rw [h1] at ht <;> simp at ht
    obtain ⟨rfl, rfl⟩ := ht
    obtain ⟨l1, e1, hl1⟩ := ih _ h hr _ b1 L1 h1 i
    exact ⟨l1, by rw [e1]; rfl, hl1⟩
  | call _ pre body post ih =>
    intro fl h hr a b L ht i
    simp only [vm, trace] at ht ⊢
    rcases h1 : trace fuel (vm n body fl) (fun i => pre (a i)) with e | ⟨b1, L1⟩ <;> rw [h1] at ht <;> simp at ht
    obtain ⟨rfl, rfl⟩ := ht
    obtain ⟨l1, e1, hl1⟩ := ih _ h hr _ b1 L1 h1 i
    exact ⟨l1, by rw [e1]; rfl, hl1⟩
  | cond j sel pre br post ih =>
    intro fl h hr a b L ht i
    obtain ⟨bt, fl⟩ := fl
    cases bt
    · simp only [vm, trace, Bool.false_eq_true, if_false] at ht ⊢
      by_cases hs : everyLane (fun i => sel (a i) == sel (a 0)) = true
      · rw [if_pos hs] at ht
        replace hs : ∀ i, sel (a i) = sel (a 0) := fun i => by simpa using everyLane_iff.1 hs i
        simp only [except_map_ok, except_bind_ok] at ht
        rcases h1 : trace fuel (vm n (br (sel (a 0))) (fl (sel (a 0)))) (fun i => pre (a i)) with e | ⟨b1, L1⟩ <;>
          rw [h1] at ht <;> simp at ht
        obtain ⟨rfl, rfl⟩ := ht
        obtain ⟨l1, e1, hl1⟩ := ih _ _ (h.2 _) (hr _) _ b1 L1 h1 i
        exact ⟨l1, by rw [hs i, e1]; rfl, hl1⟩
      · rw [if_neg hs] at ht
        simp at ht
    · have hq := h.1 rfl
      have hqv : Quiet S (allBranches fun k => vm n (br k) (fl k)) :=
        Quiet.allBranches (fun i => Quiet.vm n (br i) (fl i) (hq i))
      simp only [vm, if_true, trace] at ht ⊢
      rcases h1 : trace fuel (allBranches fun k => vm n (br k) (fl k)) (fun i => pre (a i)) with e | ⟨b1, L1⟩ <;>
        rw [h1] at ht <;> simp at ht
      obtain ⟨rfl, rfl⟩ := ht
      obtain ⟨L2, h2⟩ := trace_allBranches fuel h1 (sel (a i))
      obtain ⟨l1, e1, hl1⟩ := ih _ _ (h.2 _) (hr _) _ _ L2 h2 i
      refine ⟨l1, by rw [e1]; rfl, fun k => ?_⟩
      rw [quiet_collect fuel _ (hq _) _ _ e1 k]
      have := quiet_collect fuel _ hqv _ _ h1 k
      simp only at this
      rw [this]
      rfl
  | scan rev pre body post ih =>
    intro fl h hr a b L ht i
    simp only [vm, trace] at ht ⊢
    by_cases hs : everyLane (fun i => (pre (a i)).2.length == (pre (a 0)).2.length) = true
    · rw [if_pos hs] at ht
      replace hs : ∀ i, (pre (a i)).2.length = (pre (a 0)).2.length := fun i => by simpa using everyLane_iff.1 hs i
      simp only [except_map_ok, except_bind_ok] at ht
      generalize hm : scanDir rev _ _ _ = u at ht
      rcases u with e | ⟨k1, ys⟩ <;> simp at ht
      obtain ⟨rfl, rfl⟩ := ht
      obtain ⟨zs, hz1, hz2⟩ := scanDir_lane rev (fun k => k i) (fun x => x i)
        (TY := fun y z => z.1 = y.1 i ∧ LaneLog S i z.2 y.2)
        (g := fun kx => (trace fuel body kx).map (fun r => (r.1.1, (r.1.2, r.2))))
        (by
          intro k x k2 y hf
          rcases h1 : trace fuel (vm n body fl) (fun i => (k i, x i)) with e | ⟨b1, L1⟩ <;> rw [h1] at hf <;> simp at hf
          obtain ⟨rfl, rfl⟩ := hf
          obtain ⟨l1, e1, hl1⟩ := ih fl h hr.1 _ b1 L1 h1 i
          exact ⟨((b1 i).2, l1), by rw [e1]; rfl, rfl, hl1⟩) _ _ _ _ hm
      rw [transposed_lane hs i] at hz1
      have hout : zs.map (·.1) = ys.map (fun y => y.1 i) := by
        clear hz1 hm
        induction hz2 with
        | nil => rfl
        | cons h _ ih => simp only [List.map_cons, ih, h.1]
      have hlog : List.Forall₂ (fun L l => LaneLog S i l L) (ys.map (·.2)) (zs.map (·.2)) := by
        clear hz1 hm hout
        induction hz2 with
        | nil => exact .nil
        | cons h _ ih => exact .cons h.2 ih
      refine ⟨[.scan rev (sites body) (zs.map (·.2))], ?_, fun k => ?_⟩
      · rw [hz1]
        simp only [except_map_ok, hout]
        rfl
      · have hd := declares_vm n body fl h hr.1 k
        simp only [collect, Ev.collect, Option.none_or, sites, hd, laneLog_iters hlog k]
        cases declares S k (sites body) with
        | none => rfl
        | some mode =>
          cases mode
          · rfl
          · simp only [Option.map_some, Val.lane, laneL_eq, List.map_map, Option.some.injEq, Val.stack.injEq]
            refine List.map_congr_left (fun o _ => ?_)
            cases o <;> rfl
          · simp only [Option.map_some, execOrder_map, lastSome_map, lane_getD]
          · simp only [execOrder_map, lastSome_map]
          · rfl
    · rw [if_neg hs] at ht
      simp at ht
  | whileL pre test body post iht ihb =>
    intro fl h hr a b L ht i
    obtain ⟨bt, flt, flb⟩ := fl
    have hrt : Regular S (fun _ => false) test := Quiet.regular _ hr.2 (fun _ => rfl)
    cases bt
    · simp only [vm, trace, Bool.false_eq_true, if_false] at ht ⊢
      generalize hm : loopT _ _ _ _ = u at ht
      rcases u with e | ⟨k1, Ls, Lt⟩ <;> simp at ht
      obtain ⟨rfl, rfl⟩ := ht
      obtain ⟨ls, lt, e1, hls⟩ := loopT_lane (fun k => k i) (TL := fun L l => LaneLog S i l L)
        (c' := fun k => trace fuel test k) (b' := fun k => trace fuel body k)
        (by
          intro k t l hc
          rcases h1 : trace fuel (vm n test flt) k with e | ⟨ts, L1⟩ <;> rw [h1] at hc
          · simp at hc
          simp only [except_bind_ok] at hc
          by_cases hs : everyLane (fun i => ts i == ts 0) = true
          · rw [if_pos hs] at hc
            replace hs : ∀ i, ts i = ts 0 := fun i => by simpa using everyLane_iff.1 hs i
            simp only [except_map_ok, except_bind_ok, except_pure, Except.ok.injEq, Prod.mk.injEq] at hc
            obtain ⟨l1, e1, -⟩ := iht flt h.2.1 hrt k ts L1 h1 i
            exact ⟨l1, by rw [e1, hs i, hc.1]⟩
          · rw [if_neg hs] at hc
            simp at hc)
        (by
          intro k k2 l hb
          exact ihb flb h.2.2 hr.1 k k2 l hb i) _ _ _ hm
      refine ⟨[.loop (sites body) ls lt], by rw [e1]; rfl, fun k => ?_⟩
      have hd := declares_vm n body flb h.2.2 hr.1 k
      have ht1 := (loopT_forall _ _ (fun _ => True) (fun l => collect S k l = none)
        (by intro l r hl hr; simp [collect_append, hl, hr])
        (fun k' r hk => quiet_collect fuel test hr.2 k' r hk k) (fun _ _ _ => trivial) _ _ _ e1).2
      have hqt : Quiet S (.seq (vm n test flt) (.pure (fun t => if everyLane (fun i => t i == t 0) then .ok (t 0) else .error .shape))) :=
        ⟨Quiet.vm n test flt hr.2, trivial⟩
      have ht2 := (loopT_forall _ _ (fun _ => True) (fun l => collect S k l = none)
        (by intro l r hl hr; simp [collect_append, hl, hr])
        (fun k' r hk => quiet_collect fuel _ hqt k' r hk k) (fun _ _ _ => trivial) _ _ _ hm).2
      simp only at ht1 ht2
      simp only [collect, Ev.collect, Option.none_or, hd, laneLog_iters hls k, ht1, ht2]
      cases declares S k (sites body) with
      | none => rfl
      | some mode =>
        cases mode
        · rfl
        · rfl
        · simp only [Option.map_some, lastSome_map, lane_getD]
        · simp only [lastSome_map]
        · rfl
    · have hq := (h.1 rfl).1
      have hQ : Quiet S (vm n (.whileL pre test body post) (true, flt, flb)) :=
        Quiet.vm n _ _ ⟨fun _ => hr.2, hq⟩
      have hLn := quiet_collect fuel _ hQ _ _ ht
      simp only [vm, trace, if_true, id] at ht ⊢
      generalize hm : loopT _ _ _ _ = u at ht
      rcases u with e | ⟨k1, Ls, Lt⟩ <;> simp at ht
      obtain ⟨rfl, rfl⟩ := ht
      have hstep : ∀ k k2 l, (do
            let r ← (trace fuel (vm n test flt) k).map (fun r => ((k, r.1), r.2))
            let s ← (trace fuel (vm n body flb) r.1.1).map
              (fun s => (fun i => if r.1.2 i then s.1 i else r.1.1 i, s.2))
            pure (s.1, r.2 ++ s.2) : Except RErr ((Fin (n + 1) → _) × Log (Fin (n + 1) → V))) = .ok (k2, l) →
          ∃ t lt, trace fuel test (k i) = .ok (t, lt) ∧
            (t = false → k2 i = k i) ∧ (t = true → ∃ lb, trace fuel body (k i) = .ok (k2 i, lb)) := by
        intro k k2 l hb
        rcases h1 : trace fuel (vm n test flt) k with e | ⟨ts, L1⟩ <;> rw [h1] at hb
        · simp at hb
        simp only [except_map_ok, except_bind_ok] at hb
        rcases h2 : trace fuel (vm n body flb) k with e | ⟨k3, L2⟩ <;> rw [h2] at hb
        · simp at hb
        simp only [except_map_ok, except_bind_ok, except_pure, Except.ok.injEq, Prod.mk.injEq] at hb
        obtain ⟨rfl, rfl⟩ := hb
        obtain ⟨l1, e1, -⟩ := iht flt h.2.1 hrt k ts L1 h1 i
        obtain ⟨l2, e2, -⟩ := ihb flb h.2.2 hr.1 k k3 L2 h2 i
        refine ⟨ts i, l1, e1, fun ht => by simp [ht], fun ht => ⟨l2, by simp [ht, e2]⟩⟩
      obtain ⟨s, hs⟩ := loopT_until (fun k => k i)
        (c' := fun k => trace fuel test k) (b' := fun k => trace fuel body k)
        (by
          intro k t l hc
          rcases h1 : trace fuel (vm n test flt) k with e | ⟨ts, L1⟩ <;> rw [h1] at hc
          · simp at hc
          simp only [except_map_ok, except_bind_ok, except_pure, Except.ok.injEq, Prod.mk.injEq] at hc
          obtain ⟨l1, e1, -⟩ := iht flt h.2.1 hrt k ts L1 h1 i
          refine ⟨ts i, l1, e1, fun ht => ?_⟩
          rw [← hc.1] at ht
          rcases hti : ts i with _ | _
          · rfl
          · rw [anyLane_iff.2 ⟨i, hti⟩] at ht
            cases ht)
        (by
          intro k k2 l hb ⟨l', hf⟩
          obtain ⟨t, lt, e1, h1, -⟩ := hstep k k2 l hb
          rw [e1] at hf
          simp only [Except.ok.injEq, Prod.mk.injEq] at hf
          exact h1 hf.1)
        (by
          intro k k2 l hb ⟨l', hf⟩
          obtain ⟨t, lt, e1, -, h1⟩ := hstep k k2 l hb
          rw [e1] at hf
          simp only [Except.ok.injEq, Prod.mk.injEq] at hf
          exact h1 hf.1) _ _ _ hm
      have hfin : trace fuel (.whileL pre test body post) (a i) = .ok (post (a i) (k1 i), [.loop (sites body) s.1 s.2]) := by
        simp only [trace]
        rw [hs]
        rfl
      refine ⟨[.loop (sites body) s.1 s.2], by simpa only [trace] using hfin, fun k => ?_⟩
      have hq1 : Quiet S (.whileL pre test body post) := ⟨fun _ => hr.2, hq⟩
      have := quiet_collect fuel _ hq1 _ _ hfin k
      simp only at this
      rw [this]
      have := hLn k
      simp only at this
      rw [this]
      rfl

end Verif.Harvest
