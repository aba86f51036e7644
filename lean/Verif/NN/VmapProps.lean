import Verif.NN.Vmap

/-!
# C70: layers under `jax.vmap`
-/

namespace Verif.NN

/-! ### Specification -/

/-- `jax.vmap` over `B` examples of a layer that is not mapped, with a key that is shared by the examples (or absent), by
the words of the documentation (base.py:107-117): `xs` are the examples, `ys` the outputs, and the last argument is the
one updated layer.  `BatchNorm` normalises with the statistics of the batch that reaches it (in training mode) or with
its moving statistics, and updates the latter with those of the batch.  Every other layer sees the examples one by
one. -/
inductive BatchRun {B : Nat} (E : Env) : Bool → Layer → (Fin B → Arr) → Option Nat → (Fin B → Arr) → Layer → Prop
  | leaf (tr l xs rng ys) (hb : ∀ bn, l ≠ .batchNorm bn) (hs : ∀ ls, l ≠ .serial ls)
      (h : ∀ i, leafCall E tr rng (xs i) l = .ok (ys i)) : BatchRun E tr l xs rng ys l
  | train (bn xs rng) (hne : 0 < B → bn.shape ≠ []) (h : ∀ i, (xs i).shape = bn.shape) :
      BatchRun E true (.batchNorm bn) xs rng
        (fun i => (bnTrain bn (List.ofFn xs))[i.1]'(by simp [bnTrain])) (.batchNorm (bnUpdateBatched bn (List.ofFn xs)))
  | infer (bn xs rng) (hne : 0 < B → bn.shape ≠ []) (h : ∀ i, (xs i).shape = bn.shape) :
      BatchRun E false (.batchNorm bn) xs rng
        (fun i => bnInfer bn (xs i)) (.batchNorm (bnUpdateBatched bn (List.ofFn xs)))
  | last (tr l xs rng ys l') (h : BatchRun E tr l xs (rng.map fun k => (E.split k).2) ys l') :
      BatchRun E tr (.serial [l]) xs rng ys (.serial [l'])
  | more (tr l l₂ ls xs rng ys zs l' ls') (h : BatchRun E tr l xs (rng.map fun k => (E.split k).2) ys l')
      (ht : BatchRun E tr (.serial (l₂ :: ls)) ys (rng.map fun k => (E.split k).1) zs (.serial ls')) :
      BatchRun E tr (.serial (l :: l₂ :: ls)) xs rng zs (.serial (l' :: ls'))

mutual
/-- One lane of a layer. -/
def VLayer.at {B : Nat} : VLayer B → Fin B → Layer
  | .leaf l, i => l.at i
  | .serial ls, i => .serial (atAll ls i)
/-- One lane of a list of layers. -/
def atAll {B : Nat} : List (VLayer B) → Fin B → List Layer
  | [], _ => []
  | l :: ls, i => l.at i :: atAll ls i
end

/-- One lane of an output. -/
def VOut.at {B : Nat} : VOut B → Fin B → Out
  | .one a, i => .one (a.at i)
  | .many as, i => .many (as.map (·.at i))

mutual
/-- No `BatchNorm` that is not mapped; leaves are not `Serial`. -/
def VLayer.Plain {B : Nat} : VLayer B → Prop
  | .leaf l => (∀ bn, l ≠ .all (.batchNorm bn)) ∧ ∀ i ls, l.at i ≠ .serial ls
  | .serial ls => PlainAll ls
/-- Every layer of a list is `Plain`. -/
def PlainAll {B : Nat} : List (VLayer B) → Prop
  | [] => True
  | l :: ls => l.Plain ∧ PlainAll ls
end

mutual
/-- A layer that is not mapped. -/
def Layer.lift (B : Nat) : Layer → VLayer B
  | .serial ls => .serial (liftAll B ls)
  | .dense k b => .leaf (.all (.dense k b))
  | .dropout r => .leaf (.all (.dropout r))
  | .act a => .leaf (.all (.act a))
  | .flatten => .leaf (.all .flatten)
  | .reshape d => .leaf (.all (.reshape d))
  | .conv k b s p => .leaf (.all (.conv k b s p))
  | .deconv k b s p => .leaf (.all (.deconv k b s p))
  | .pool k w s p => .leaf (.all (.pool k w s p))
  | .batchNorm bn => .leaf (.all (.batchNorm bn))
/-- Layers that are not mapped. -/
def liftAll (B : Nat) : List Layer → List (VLayer B)
  | [] => []
  | l :: ls => l.lift B :: liftAll B ls
end

/-- The batching rules of JAX keep the batch axis in front. -/
def Rep.Front {B : Nat} (R : Rep B) : Prop := ∀ l (xs : Fin B → Arr) r f, R.rep l (.mapped 0 xs) r f = .mapped 0 f

/-! ### Lemmas -/

theorem seqE_ok {α : Type} : ∀ {B : Nat} (f : Fin B → Except Err α) (g : Fin B → α),
    seqE f = .ok g ↔ ∀ i, f i = .ok (g i)
  | 0, f, g => by
    constructor
    · intro _ i; exact i.elim0
    · intro _; simp only [seqE]; congr 1; funext i; exact i.elim0
  | n + 1, f, g => by
    have ih := seqE_ok (fun i => f i.succ) (fun i => g i.succ)
    simp only [seqE]
    constructor
    · intro h
      rcases h0 : f 0 with e | a
      · rw [h0] at h; simp [bind, Except.bind] at h
      · rw [h0] at h
        simp only [bind, Except.bind] at h
        rcases h1 : seqE (fun i => f i.succ) with e | g'
        · rw [h1] at h; simp at h
        · rw [h1] at h
          simp only [pure, Except.pure, Except.ok.injEq] at h
          subst h
          intro i
          refine Fin.cases ?_ ?_ i
          · simp [h0]
          · intro j
            rw [Fin.cons_succ]
            exact (seqE_ok (fun i => f i.succ) g').1 h1 j
    · intro h
      rw [h 0, ih.2 (fun i => h i.succ)]
      simp only [bind, Except.bind, pure, Except.pure, Except.ok.injEq]
      funext i
      refine Fin.cases ?_ ?_ i <;> simp

theorem seqE_exists {α : Type} {B : Nat} (f : Fin B → Except Err α) : (∃ g, seqE f = .ok g) ↔ ∀ i, ∃ a, f i = .ok a := by
  constructor
  · rintro ⟨g, hg⟩ i; exact ⟨g i, (seqE_ok f g).1 hg i⟩
  · intro h
    choose g hg using h
    exact ⟨g, (seqE_ok f g).2 hg⟩

/-- A call of a layer that is not a `Serial`. -/
theorem cau_leafBoth (E : Env) (tr : Bool) (l : Layer) (hs : ∀ ls, l ≠ .serial ls) (x : Arr) (rng : Option Nat) :
    callAndUpdate E tr l [x] rng = (leafBoth E tr l x rng).map (fun r => (.one r.1, r.2)) := by
  cases l <;> first | exact absurd rfl (hs _) | skip
  all_goals
    simp only [callAndUpdate, leafBoth]
    rcases leafCall E tr rng x _ with e | y <;> simp only [bind, Except.bind, pure, Except.pure, Except.map]
    rcases leafUpdate x _ with e | y <;> rfl

theorem cau_arity (E : Env) (tr : Bool) (l : Layer) (hs : ∀ ls, l ≠ .serial ls) (xs : List Arr) (rng : Option Nat)
    (h : ∀ x, xs ≠ [x]) : callAndUpdate E tr l xs rng = .error .arity := by
  match xs with
  | [] => cases l <;> first | exact absurd rfl (hs _) | simp [callAndUpdate]
  | [x] => exact absurd rfl (h x)
  | a :: b :: c => cases l <;> first | exact absurd rfl (hs _) | simp [callAndUpdate]

theorem Except.map_ok {α β : Type} (f : α → β) (a : Except Err α) (b : β) :
    a.map f = .ok b ↔ ∃ x, a = .ok x ∧ f x = b := by
  cases a <;> simp [Except.map]

theorem leafUpdate_id (x : Arr) (l : Layer) (hb : ∀ bn, l ≠ .batchNorm bn) : leafUpdate x l = .ok l := by
  cases l <;> first | exact absurd rfl (hb _) | rfl

theorem leafBoth_ok (E : Env) (tr : Bool) (l : Layer) (x : Arr) (rng : Option Nat) (y l') :
    leafBoth E tr l x rng = .ok (y, l') ↔ leafCall E tr rng x l = .ok y ∧ leafUpdate x l = .ok l' := by
  simp only [leafBoth, bind, Except.bind, pure, Except.pure]
  cases leafCall E tr rng x l <;> simp
  cases leafUpdate x l <;> simp

theorem vGeneric_ok {B : Nat} (E : Env) (tr : Bool) (R : Rep B) (l x rng o) (V' : VLayer B) :
    vGeneric E tr R l x rng = .ok (o, V') ↔ ∃ r : Fin B → Arr × Layer,
      (∀ i, leafBoth E tr (l.at i) (x.at i) (rng.map (·.at i)) = .ok (r i)) ∧
      o = .one (R.rep l x rng (fun i => (r i).1)) ∧ V' = .leaf (newLeaf l r) := by
  simp only [vGeneric, bind, Except.bind, pure, Except.pure]
  constructor
  · intro h
    rcases hs : seqE (fun i => leafBoth E tr (l.at i) (x.at i) (rng.map (·.at i))) with e | r
    · rw [hs] at h; simp at h
    · rw [hs] at h
      simp only [Except.ok.injEq, Prod.mk.injEq] at h
      exact ⟨r, (seqE_ok _ _).1 hs, h.1.symm, h.2.symm⟩
  · rintro ⟨r, hr, rfl, rfl⟩
    rw [(seqE_ok _ _).2 hr]

theorem vLeaf_generic {B : Nat} (E : Env) (tr : Bool) (R : Rep B) (l : BV B Layer) (x rng)
    (h : ∀ bn, l ≠ .all (.batchNorm bn)) : vLeaf E tr R l x rng = vGeneric E tr R l x rng := by
  rcases l with l | ⟨ax, f⟩
  · cases l <;> first | exact absurd rfl (h _) | (cases x <;> rfl)
  · cases x <;> rfl

theorem newLeaf_at {B : Nat} (E : Env) (tr : Bool) (l : BV B Layer) (x : BV B Arr) (rng : Option (BV B Nat))
    (r : Fin B → Arr × Layer) (hb : ∀ bn, l ≠ .all (.batchNorm bn))
    (h : ∀ i, leafBoth E tr (l.at i) (x.at i) (rng.map (·.at i)) = .ok (r i)) (i : Fin B) :
    (newLeaf l r).at i = (r i).2 := by
  rcases l with l | ⟨ax, f⟩
  · have h1 := ((leafBoth_ok E tr _ _ _ (r i).1 (r i).2).1 (h i)).2
    have h2 := leafUpdate_id (x.at i) l (fun bn hl => hb bn (by rw [hl]))
    rw [show (BV.all l : BV B Layer).at i = l from rfl, h2] at h1
    exact Except.ok.inj h1
  · rfl

theorem split_at {B : Nat} (E : Env) (rng : Option (BV B Nat)) (i : Fin B) :
    ((rng.map (splitBV E)).map Prod.snd).map (·.at i) = ((rng.map (·.at i)).map E.split).map Prod.snd ∧
    ((rng.map (splitBV E)).map Prod.fst).map (·.at i) = ((rng.map (·.at i)).map E.split).map Prod.fst := by
  rcases rng with _ | k
  · exact ⟨rfl, rfl⟩
  · cases k <;> exact ⟨rfl, rfl⟩

theorem args_at {B : Nat} (a : VOut B) (i : Fin B) : a.args.map (·.at i) = (a.at i).args := by
  cases a <;> rfl

theorem atAll_isEmpty {B : Nat} (ls : List (VLayer B)) (i : Fin B) : (atAll ls i).isEmpty = ls.isEmpty := by
  cases ls <;> rfl

mutual
theorem vCall_lanes {B : Nat} (E : Env) (tr : Bool) (R : Rep B) : ∀ (V : VLayer B), V.Plain → ∀ args rng o V',
    vCall E tr R V args rng = .ok (o, V') → ∀ i,
    callAndUpdate E tr (V.at i) (args.map (·.at i)) (rng.map (·.at i)) = .ok (o.at i, V'.at i)
  | .leaf l, hp, args, rng, o, V', h, i => by
    match args with
    | [] => simp [vCall] at h
    | a :: b :: c => simp [vCall] at h
    | [x] =>
      simp only [vCall] at h
      rw [vLeaf_generic E tr R l x rng hp.1] at h
      obtain ⟨r, hr, rfl, rfl⟩ := (vGeneric_ok E tr R l x rng o V').1 h
      show callAndUpdate E tr (l.at i) [x.at i] _ = _
      rw [cau_leafBoth E tr _ (hp.2 i), hr i]
      simp only [Except.map, VOut.at, R.lanes, VLayer.at, newLeaf_at E tr l x rng r hp.1 hr i]
  | .serial ls, hp, args, rng, o, V', h, i => by
    simp only [vCall] at h
    by_cases he : ls.isEmpty
    · rw [if_pos he] at h; cases h
    rw [if_neg he] at h
    rcases hl : vLoop E tr R ls (.many args) rng with e | ⟨o1, ls'⟩
    · rw [hl] at h; cases h
    · rw [hl] at h
      simp only [bind, Except.bind, pure, Except.pure, Except.ok.injEq, Prod.mk.injEq] at h
      obtain ⟨rfl, rfl⟩ := h
      have ih := vLoop_lanes E tr R ls hp (.many args) rng o1 ls' hl i
      simp only [VLayer.at, callAndUpdate, atAll_isEmpty, he]
      rw [show Out.many (args.map (·.at i)) = (VOut.many args).at i from rfl, ih]
      rfl
theorem vLoop_lanes {B : Nat} (E : Env) (tr : Bool) (R : Rep B) : ∀ (ls : List (VLayer B)), PlainAll ls →
    ∀ a rng o ls', vLoop E tr R ls a rng = .ok (o, ls') → ∀ i,
    serialLoop E tr (atAll ls i) (a.at i) (rng.map (·.at i)) = .ok (o.at i, atAll ls' i)
  | [], _, a, rng, o, ls', h, i => by
    simp only [vLoop, Except.ok.injEq, Prod.mk.injEq] at h
    obtain ⟨rfl, rfl⟩ := h
    rfl
  | l :: ls, hp, a, rng, o, ls', h, i => by
    simp only [vLoop] at h
    rcases h1 : vCall E tr R l a.args ((rng.map (splitBV E)).map Prod.snd) with e | ⟨o1, l'⟩
    · rw [h1] at h; cases h
    rw [h1] at h
    simp only [bind, Except.bind] at h
    rcases h2 : vLoop E tr R ls o1 ((rng.map (splitBV E)).map Prod.fst) with e | ⟨o2, ls2⟩
    · rw [h2] at h; cases h
    rw [h2] at h
    simp only [pure, Except.pure, Except.ok.injEq, Prod.mk.injEq] at h
    obtain ⟨rfl, rfl⟩ := h
    have i1 := vCall_lanes E tr R l hp.1 _ _ _ _ h1 i
    have i2 := vLoop_lanes E tr R ls hp.2 _ _ _ _ h2 i
    rw [args_at, (split_at E rng i).1] at i1
    rw [(split_at E rng i).2] at i2
    simp only [atAll, serialLoop, i1, i2, bind, Except.bind, pure, Except.pure]
end

mutual
theorem vCall_runs {B : Nat} (hB : 0 < B) (E : Env) (tr : Bool) (R : Rep B) : ∀ (V : VLayer B), V.Plain → ∀ args rng,
    (∀ i, ∃ r, callAndUpdate E tr (V.at i) (args.map (·.at i)) (rng.map (·.at i)) = .ok r) →
    ∃ r, vCall E tr R V args rng = .ok r
  | .leaf l, hp, args, rng, h => by
    match args with
    | [] =>
      obtain ⟨r, hr⟩ := h ⟨0, hB⟩
      rw [show (VLayer.leaf l).at ⟨0, hB⟩ = l.at ⟨0, hB⟩ from rfl, cau_arity E tr _ (hp.2 _) _ _ (by simp)] at hr
      cases hr
    | a :: b :: c =>
      obtain ⟨r, hr⟩ := h ⟨0, hB⟩
      rw [show (VLayer.leaf l).at ⟨0, hB⟩ = l.at ⟨0, hB⟩ from rfl, cau_arity E tr _ (hp.2 _) _ _ (by simp)] at hr
      cases hr
    | [x] =>
      simp only [vCall]
      rw [vLeaf_generic E tr R l x rng hp.1]
      have : ∀ i, ∃ a, leafBoth E tr (l.at i) (x.at i) (rng.map (·.at i)) = .ok a := by
        intro i
        obtain ⟨r, hr⟩ := h i
        rw [show (VLayer.leaf l).at i = l.at i from rfl, List.map_cons, List.map_nil, cau_leafBoth E tr _ (hp.2 i),
          Except.map_ok] at hr
        exact ⟨_, hr.choose_spec.1⟩
      choose r hr using this
      exact ⟨_, (vGeneric_ok E tr R l x rng _ _).2 ⟨r, hr, rfl, rfl⟩⟩
  | .serial ls, hp, args, rng, h => by
    have hne : ls.isEmpty = false := by
      obtain ⟨r, hr⟩ := h ⟨0, hB⟩
      cases ls with
      | nil => cases hr
      | cons => rfl
    have : ∃ r, vLoop E tr R ls (.many args) rng = .ok r := by
      refine vLoop_runs hB E tr R ls hp (.many args) rng fun i => ?_
      obtain ⟨r, hr⟩ := h i
      simp only [VLayer.at, callAndUpdate, atAll_isEmpty, hne] at hr
      rcases hl : serialLoop E tr (atAll ls i) (.many (args.map (·.at i))) (rng.map (·.at i)) with e | q
      · rw [hl] at hr; cases hr
      · exact ⟨q, hl⟩
    obtain ⟨r, hr⟩ := this
    refine ⟨(r.1, .serial r.2), ?_⟩
    simp only [vCall, hne, hr]
    rfl
theorem vLoop_runs {B : Nat} (hB : 0 < B) (E : Env) (tr : Bool) (R : Rep B) : ∀ (ls : List (VLayer B)), PlainAll ls →
    ∀ a rng, (∀ i, ∃ r, serialLoop E tr (atAll ls i) (a.at i) (rng.map (·.at i)) = .ok r) →
    ∃ r, vLoop E tr R ls a rng = .ok r
  | [], _, a, rng, _ => ⟨(a, []), rfl⟩
  | l :: ls, hp, a, rng, h => by
    have h1 : ∃ r, vCall E tr R l a.args ((rng.map (splitBV E)).map Prod.snd) = .ok r := by
      refine vCall_runs hB E tr R l hp.1 _ _ fun i => ?_
      obtain ⟨r, hr⟩ := h i
      rw [args_at, (split_at E rng i).1]
      simp only [atAll, serialLoop] at hr
      rcases hl : callAndUpdate E tr (l.at i) (a.at i).args (((rng.map (·.at i)).map E.split).map Prod.snd) with e | q
      · rw [hl] at hr; cases hr
      · exact ⟨q, hl⟩
    obtain ⟨⟨o1, l'⟩, h1⟩ := h1
    have h2 : ∃ r, vLoop E tr R ls o1 ((rng.map (splitBV E)).map Prod.fst) = .ok r := by
      refine vLoop_runs hB E tr R ls hp.2 _ _ fun i => ?_
      have i1 := vCall_lanes E tr R l hp.1 _ _ _ _ h1 i
      rw [args_at, (split_at E rng i).1] at i1
      obtain ⟨r, hr⟩ := h i
      simp only [atAll, serialLoop, i1, bind, Except.bind] at hr
      rw [(split_at E rng i).2]
      rcases hl : serialLoop E tr (atAll ls i) (o1.at i) (((rng.map (·.at i)).map E.split).map Prod.fst) with e | q
      · rw [hl] at hr; cases hr
      · exact ⟨q, hl⟩
    obtain ⟨⟨o2, ls2⟩, h2⟩ := h2
    exact ⟨(o2, l' :: ls2), by simp only [vLoop, h1, h2, bind, Except.bind, pure, Except.pure]⟩
end


/-! ### `BatchNorm` -/

theorem bn_stage (E : Env) (tr : Bool) (bn : BN) (x : Arr) (rng : Option Nat) :
    (∃ r, leafBoth E tr (.batchNorm bn) x rng = .ok r) ↔ x.shape = bn.shape ∧ bn.shape ≠ [] := by
  constructor
  · rintro ⟨r, hr⟩
    have h := ((leafBoth_ok E tr _ _ _ r.1 r.2).1 hr).2
    simp only [leafUpdate, bnUpdate] at h
    by_cases hc : x.shape ≠ bn.shape ∨ bn.shape = []
    · rw [if_pos hc] at h; cases h
    · exact ⟨not_not.1 fun h => hc (.inl h), fun h => hc (.inr h)⟩
  · rintro ⟨h1, h2⟩
    have e1 : ∃ y, leafCall E tr rng x (.batchNorm bn) = .ok y := by
      simp only [leafCall, bnCall, h1]
      cases tr <;> simp
    have e2 : ∃ l, leafUpdate x (.batchNorm bn) = .ok l := by
      have h3 : ¬ (x.shape ≠ bn.shape ∨ bn.shape = []) := fun h => h.elim (fun h => h h1) h2
      simp only [leafUpdate, bnUpdate, if_neg h3]
      exact ⟨_, rfl⟩
    obtain ⟨y, hy⟩ := e1
    obtain ⟨l, hl⟩ := e2
    exact ⟨(y, l), (leafBoth_ok E tr _ _ _ y l).2 ⟨hy, hl⟩⟩

theorem any_all {B : Nat} (rng : Option Nat) : (rng.map (BV.all (B := B))).any (·.isMapped) = false := by
  cases rng <;> rfl

theorem vLeaf_bn {B : Nat} (E : Env) (tr : Bool) (R : Rep B) (bn : BN) (xs : Fin B → Arr) (rng : Option Nat) (o) (V' : VLayer B) :
    vLeaf E tr R (.all (.batchNorm bn)) (.mapped 0 xs) (rng.map .all) = .ok (o, V') ↔
      (∀ i, (xs i).shape = bn.shape) ∧ (0 < B → bn.shape ≠ []) ∧ o = .one (.mapped 0 (bnBatched bn tr xs)) ∧
      V' = .leaf (.all (.batchNorm (bnUpdateBatched bn (List.ofFn xs)))) := by
  simp only [vLeaf, vBatchNorm, any_all]
  constructor
  · intro h
    rcases hs : seqE (fun i => leafBoth E tr (.batchNorm bn) ((BV.mapped 0 xs).at i)
      (Option.map (·.at i) (rng.map (BV.all (B := B))))) with e | r
    · rw [hs] at h; cases h
    · rw [hs] at h
      simp only [bind, Except.bind, ne_eq, not_true, if_false, Bool.false_eq_true, pure, Except.pure, Except.ok.injEq,
        Prod.mk.injEq] at h
      have hall := fun i => (bn_stage E tr bn (xs i) _).1 ⟨_, (seqE_ok _ _).1 hs i⟩
      exact ⟨fun i => (hall i).1, fun hB => (hall ⟨0, hB⟩).2, h.1.symm, h.2.symm⟩
  · rintro ⟨h1, h2, rfl, rfl⟩
    obtain ⟨r, hr⟩ := (seqE_exists (fun i => leafBoth E tr (.batchNorm bn) ((BV.mapped 0 xs).at i)
      (Option.map (·.at i) (rng.map (BV.all (B := B)))))).2 fun i =>
        (bn_stage E tr bn (xs i) _).2 ⟨h1 i, h2 (Nat.lt_of_le_of_lt (Nat.zero_le _) i.2)⟩
    rw [hr]
    rfl

theorem lift_leaf (B : Nat) (l : Layer) (hs : ∀ ls, l ≠ .serial ls) : l.lift B = .leaf (.all l) := by
  cases l <;> first | exact absurd rfl (hs _) | simp only [Layer.lift]

theorem vCall_leaf_front {B : Nat} (E : Env) (tr : Bool) (R : Rep B) (hR : R.Front) (l : Layer)
    (hb : ∀ bn, l ≠ .batchNorm bn) (hs : ∀ ls, l ≠ .serial ls) (xs : Fin B → Arr) (rng : Option Nat) (o) (V' : VLayer B) :
    vCall E tr R (l.lift B) [.mapped 0 xs] (rng.map .all) = .ok (o, V') ↔
      ∃ ys : Fin B → Arr, (∀ i, leafCall E tr rng (xs i) l = .ok (ys i)) ∧ o = .one (.mapped 0 ys) ∧ V' = l.lift B := by
  rw [lift_leaf B l hs]
  simp only [vCall]
  rw [vLeaf_generic E tr R _ _ _ (by rintro bn ⟨⟩; exact hb bn rfl), vGeneric_ok]
  have hr : ∀ i, Option.map (BV.at · i) (rng.map (BV.all (B := B))) = rng := by intro i; cases rng <;> rfl
  constructor
  · rintro ⟨r, h, rfl, rfl⟩
    refine ⟨fun i => (r i).1, fun i => ?_, by rw [hR], rfl⟩
    have := h i
    rw [hr i] at this
    exact ((leafBoth_ok E tr _ _ _ (r i).1 (r i).2).1 this).1
  · rintro ⟨ys, h, rfl, rfl⟩
    refine ⟨fun i => (ys i, l), fun i => ?_, by rw [hR], rfl⟩
    rw [hr i]
    exact (leafBoth_ok E tr _ _ _ _ _).2 ⟨h i, leafUpdate_id _ _ hb⟩

theorem split_all {B : Nat} (E : Env) (rng : Option Nat) :
    ((rng.map (BV.all (B := B))).map (splitBV E)).map Prod.snd = (rng.map fun k => (E.split k).2).map .all ∧
    ((rng.map (BV.all (B := B))).map (splitBV E)).map Prod.fst = (rng.map fun k => (E.split k).1).map .all := by
  cases rng <;> exact ⟨rfl, rfl⟩

theorem vLoop_cons_ok {B : Nat} (E : Env) (tr : Bool) (R : Rep B) (l : VLayer B) (ls a rng o) (Vs : List (VLayer B)) :
    vLoop E tr R (l :: ls) a rng = .ok (o, Vs) ↔ ∃ o1 l' Vs', vCall E tr R l a.args ((rng.map (splitBV E)).map Prod.snd) = .ok (o1, l') ∧
      vLoop E tr R ls o1 ((rng.map (splitBV E)).map Prod.fst) = .ok (o, Vs') ∧ Vs = l' :: Vs' := by
  simp only [vLoop]
  rcases h1 : vCall E tr R l a.args ((rng.map (splitBV E)).map Prod.snd) with e | ⟨o1, l'⟩
  · simp [bind, Except.bind]
  · simp only [bind, Except.bind]
    rcases h2 : vLoop E tr R ls o1 ((rng.map (splitBV E)).map Prod.fst) with e | ⟨o2, ls2⟩
    · constructor
      · intro h; cases h
      · rintro ⟨a, b, c, h, h', -⟩
        cases h
        rw [h2] at h'; cases h'
    · simp only [pure, Except.pure, Except.ok.injEq, Prod.mk.injEq]
      constructor
      · rintro ⟨rfl, rfl⟩; exact ⟨o1, l', ls2, ⟨rfl, rfl⟩, h2, rfl⟩
      · rintro ⟨a, b, c, ⟨rfl, rfl⟩, h', rfl⟩
        rw [h2] at h'
        simp only [Except.ok.injEq, Prod.mk.injEq] at h'
        exact ⟨h'.1, by rw [h'.2]⟩

theorem vCall_serial_ok {B : Nat} (E : Env) (tr : Bool) (R : Rep B) (ls args rng o) (V' : VLayer B) :
    vCall E tr R (.serial ls) args rng = .ok (o, V') ↔ ls ≠ [] ∧ ∃ Vs, vLoop E tr R ls (.many args) rng = .ok (o, Vs) ∧ V' = .serial Vs := by
  simp only [vCall]
  cases ls with
  | nil => simp [throw, throwThe, MonadExceptOf.throw, bind, Except.bind]
  | cons l ls =>
    simp only [List.isEmpty_cons, Bool.false_eq_true, if_false, ne_eq, reduceCtorEq, not_false_eq_true, true_and]
    rcases h : vLoop E tr R (l :: ls) (.many args) rng with e | ⟨o1, Vs⟩
    · simp [bind, Except.bind, pure, Except.pure]
    · simp only [bind, Except.bind, pure, Except.pure, Except.ok.injEq, Prod.mk.injEq]
      constructor
      · rintro ⟨rfl, rfl⟩; exact ⟨Vs, ⟨rfl, rfl⟩, rfl⟩
      · rintro ⟨Vs', ⟨rfl, rfl⟩, rfl⟩; exact ⟨rfl, rfl⟩

mutual
theorem batch_sound {B : Nat} (E : Env) (tr : Bool) (R : Rep B) (hR : R.Front) : ∀ (l : Layer) (xs : Fin B → Arr)
    (rng : Option Nat) (o) (V' : VLayer B), vCall E tr R (l.lift B) [.mapped 0 xs] (rng.map .all) = .ok (o, V') →
    ∃ ys l', BatchRun E tr l xs rng ys l' ∧ o = .one (.mapped 0 ys) ∧ V' = l'.lift B
  | .serial ls, xs, rng, o, V', h => by
    simp only [Layer.lift] at h
    obtain ⟨hne, Vs, hl, rfl⟩ := (vCall_serial_ok E tr R _ _ _ _ _).1 h
    obtain ⟨ys, ls', h1, h2, h3⟩ := loop_sound E tr R hR ls (by rintro rfl; exact hne (by simp only [liftAll])) xs rng _ rfl o Vs hl
    exact ⟨ys, .serial ls', h1, h2, by simp only [Layer.lift, h3]⟩
  | .batchNorm bn, xs, rng, o, V', h => by
    simp only [Layer.lift, vCall] at h
    obtain ⟨h1, h2, rfl, rfl⟩ := (vLeaf_bn E tr R bn xs rng o V').1 h
    refine ⟨bnBatched bn tr xs, .batchNorm (bnUpdateBatched bn (List.ofFn xs)), ?_, rfl, by simp only [Layer.lift]⟩
    cases tr
    · exact .infer bn xs rng h2 h1
    · exact .train bn xs rng h2 h1
  | .dense k b, xs, rng, o, V', h => by
    obtain ⟨ys, hy, rfl, rfl⟩ := (vCall_leaf_front E tr R hR _ (by simp) (by simp) xs rng o V').1 h
    exact ⟨ys, _, .leaf tr _ xs rng ys (by simp) (by simp) hy, rfl, rfl⟩
  | .dropout r, xs, rng, o, V', h => by
    obtain ⟨ys, hy, rfl, rfl⟩ := (vCall_leaf_front E tr R hR _ (by simp) (by simp) xs rng o V').1 h
    exact ⟨ys, _, .leaf tr _ xs rng ys (by simp) (by simp) hy, rfl, rfl⟩
  | .act a, xs, rng, o, V', h => by
    obtain ⟨ys, hy, rfl, rfl⟩ := (vCall_leaf_front E tr R hR _ (by simp) (by simp) xs rng o V').1 h
    exact ⟨ys, _, .leaf tr _ xs rng ys (by simp) (by simp) hy, rfl, rfl⟩
  | .flatten, xs, rng, o, V', h => by
    obtain ⟨ys, hy, rfl, rfl⟩ := (vCall_leaf_front E tr R hR _ (by simp) (by simp) xs rng o V').1 h
    exact ⟨ys, _, .leaf tr _ xs rng ys (by simp) (by simp) hy, rfl, rfl⟩
  | .reshape d, xs, rng, o, V', h => by
    obtain ⟨ys, hy, rfl, rfl⟩ := (vCall_leaf_front E tr R hR _ (by simp) (by simp) xs rng o V').1 h
    exact ⟨ys, _, .leaf tr _ xs rng ys (by simp) (by simp) hy, rfl, rfl⟩
  | .deconv k b s p, xs, rng, o, V', h => by
    obtain ⟨ys, hy, rfl, rfl⟩ := (vCall_leaf_front E tr R hR _ (by simp) (by simp) xs rng o V').1 h
    exact ⟨ys, _, .leaf tr _ xs rng ys (by simp) (by simp) hy, rfl, rfl⟩
  | .conv k b s p, xs, rng, o, V', h => by
    obtain ⟨ys, hy, rfl, rfl⟩ := (vCall_leaf_front E tr R hR _ (by simp) (by simp) xs rng o V').1 h
    exact ⟨ys, _, .leaf tr _ xs rng ys (by simp) (by simp) hy, rfl, rfl⟩
  | .pool k w s p, xs, rng, o, V', h => by
    obtain ⟨ys, hy, rfl, rfl⟩ := (vCall_leaf_front E tr R hR _ (by simp) (by simp) xs rng o V').1 h
    exact ⟨ys, _, .leaf tr _ xs rng ys (by simp) (by simp) hy, rfl, rfl⟩
theorem loop_sound {B : Nat} (E : Env) (tr : Bool) (R : Rep B) (hR : R.Front) : ∀ (ls : List Layer) (_ : ls ≠ [])
    (xs : Fin B → Arr) (rng : Option Nat) (a : VOut B) (_ : a.args = [.mapped 0 xs]) (o) (Vs : List (VLayer B)),
    vLoop E tr R (liftAll B ls) a (rng.map .all) = .ok (o, Vs) →
    ∃ ys ls', BatchRun E tr (.serial ls) xs rng ys (.serial ls') ∧ o = .one (.mapped 0 ys) ∧ Vs = liftAll B ls'
  | [], h, _, _, _, _, _, _, _ => absurd rfl h
  | l :: ls, _, xs, rng, a, ha, o, Vs, h => by
    simp only [liftAll] at h
    obtain ⟨o1, V1, Vs', h1, h2, rfl⟩ := (vLoop_cons_ok E tr R _ _ _ _ _ _).1 h
    rw [ha, (split_all E rng).1] at h1
    rw [(split_all E rng).2] at h2
    obtain ⟨ys, l', hy, rfl, rfl⟩ := batch_sound E tr R hR l xs _ o1 V1 h1
    match ls, h2 with
    | [], h2 =>
      simp only [liftAll, vLoop, Except.ok.injEq, Prod.mk.injEq] at h2
      obtain ⟨rfl, rfl⟩ := h2
      exact ⟨ys, [l'], .last tr l xs rng ys l' hy, rfl, by simp only [liftAll]⟩
    | l2 :: ls2, h2 =>
      obtain ⟨zs, ls', hz, rfl, rfl⟩ := loop_sound E tr R hR (l2 :: ls2) (by simp) ys _ _ rfl o Vs' h2
      exact ⟨zs, l' :: ls', .more tr l l2 ls2 xs rng ys zs l' ls' hy hz, rfl, by simp only [liftAll]⟩
end

theorem batch_complete {B : Nat} (E : Env) (R : Rep B) (hR : R.Front) (tr l xs rng ys l')
    (h : BatchRun (B := B) E tr l xs rng ys l') :
    vCall E tr R (l.lift B) [.mapped 0 xs] (rng.map .all) = .ok (.one (.mapped 0 ys), l'.lift B) ∧
    (∀ ls ls', l = .serial ls → l' = .serial ls' → ∀ a : VOut B, a.args = [.mapped 0 xs] →
      vLoop E tr R (liftAll B ls) a (rng.map .all) = .ok (.one (.mapped 0 ys), liftAll B ls')) := by
  induction h with
  | leaf tr l xs rng ys hb hs h =>
    exact ⟨(vCall_leaf_front E tr R hR l hb hs xs rng _ _).2 ⟨ys, h, rfl, rfl⟩, fun ls _ hl => absurd hl (hs ls)⟩
  | train bn xs rng hne h =>
    refine ⟨?_, fun ls _ hl => by cases hl⟩
    simp only [Layer.lift, vCall]
    exact (vLeaf_bn E true R bn xs rng _ _).2 ⟨h, hne, rfl, rfl⟩
  | infer bn xs rng hne h =>
    refine ⟨?_, fun ls _ hl => by cases hl⟩
    simp only [Layer.lift, vCall]
    exact (vLeaf_bn E false R bn xs rng _ _).2 ⟨h, hne, rfl, rfl⟩
  | last tr l xs rng ys l' _ ih =>
    have hl : ∀ a : VOut B, a.args = [.mapped 0 xs] →
        vLoop E tr R (liftAll B [l]) a (rng.map .all) = .ok (.one (.mapped 0 ys), liftAll B [l']) := by
      intro a ha
      simp only [liftAll]
      refine (vLoop_cons_ok E tr R _ _ _ _ _ _).2 ⟨.one (.mapped 0 ys), l'.lift B, [], ?_, rfl, rfl⟩
      rw [ha, (split_all E rng).1]; exact ih.1
    refine ⟨?_, ?_⟩
    · simp only [Layer.lift]
      exact (vCall_serial_ok E tr R _ _ _ _ _).2 ⟨by simp [liftAll], _, hl _ rfl, rfl⟩
    · rintro ls ls' h1 h2 a ha
      cases h1; cases h2
      exact hl a ha
  | more tr l l₂ ls xs rng ys zs l' ls' _ _ ih1 ih2 =>
    have hl : ∀ a : VOut B, a.args = [.mapped 0 xs] →
        vLoop E tr R (liftAll B (l :: l₂ :: ls)) a (rng.map .all) = .ok (.one (.mapped 0 zs), liftAll B (l' :: ls')) := by
      intro a ha
      rw [liftAll, liftAll.eq_2 B l' ls']
      refine (vLoop_cons_ok E tr R _ _ _ _ _ _).2 ⟨.one (.mapped 0 ys), l'.lift B, _, ?_, ?_, rfl⟩
      · rw [ha, (split_all E rng).1]; exact ih1.1
      · rw [(split_all E rng).2]; exact ih2.2 _ _ rfl rfl _ rfl
    refine ⟨?_, ?_⟩
    · simp only [Layer.lift]
      exact (vCall_serial_ok E tr R _ _ _ _ _).2 ⟨by simp [liftAll], _, hl _ rfl, rfl⟩
    · rintro ls ls' h1 h2 a ha
      cases h1; cases h2
      exact hl a ha

/-! ### C70 -/

/-- **C70, networks without (unmapped) `BatchNorm`.**  Whatever is mapped — examples along any axis, the key, whole
layers — and however JAX represents the results, `jax.vmap` of a network returns a value iff every lane does by itself,
and then every lane of the output and of the updated network is what the lane computes by itself. -/
theorem C70_vmap_lanes {B : Nat} (hB : 0 < B) (E : Env) (tr : Bool) (R : Rep B) (V : VLayer B) (hV : V.Plain)
    (args : List (BV B Arr)) (rng : Option (BV B Nat)) :
    ((∃ r, vCall E tr R V args rng = .ok r) ↔
      ∀ i, ∃ r, callAndUpdate E tr (V.at i) (args.map (·.at i)) (rng.map (·.at i)) = .ok r) ∧
    ∀ o V', vCall E tr R V args rng = .ok (o, V') → ∀ i,
      callAndUpdate E tr (V.at i) (args.map (·.at i)) (rng.map (·.at i)) = .ok (o.at i, V'.at i) :=
  ⟨⟨fun ⟨r, hr⟩ i => ⟨_, vCall_lanes E tr R V hV args rng r.1 r.2 hr i⟩, vCall_runs hB E tr R V hV args rng⟩,
    fun o V' h => vCall_lanes E tr R V hV args rng o V' h⟩

/-- **C70, networks with `BatchNorm`.**  If the batch axis is in front and stays there, the network is not mapped and
the examples share the key (or there is none), `jax.vmap` of the network returns exactly what `BatchRun` says: each
`BatchNorm` sees the whole batch at its place in the network, and one updated network, not mapped, is returned. -/
theorem C70_vmap_batch_partial {B : Nat} (E : Env) (tr : Bool) (R : Rep B) (hR : R.Front) (l : Layer) (xs : Fin B → Arr)
    (rng : Option Nat) (o : VOut B) (V' : VLayer B) :
    vCall E tr R (l.lift B) [.mapped 0 xs] (rng.map .all) = .ok (o, V') ↔
      ∃ ys l', BatchRun E tr l xs rng ys l' ∧ o = .one (.mapped 0 ys) ∧ V' = l'.lift B := by
  constructor
  · exact batch_sound E tr R hR l xs rng o V'
  · rintro ⟨ys, l', h, rfl, rfl⟩
    exact (batch_complete E R hR tr l xs rng ys l' h).1

theorem serial_cons_ok (E : Env) (tr : Bool) (l l₂ : Layer) (ls : List Layer) (x y z : Arr) (rng : Option Nat) (l' ls')
    (h : callAndUpdate E tr l [x] (rng.map fun k => (E.split k).2) = .ok (.one y, l'))
    (ht : callAndUpdate E tr (.serial (l₂ :: ls)) [y] (rng.map fun k => (E.split k).1) = .ok (.one z, .serial ls')) :
    callAndUpdate E tr (.serial (l :: l₂ :: ls)) [x] rng = .ok (.one z, .serial (l' :: ls')) := by
  have hk1 : (rng.map E.split).map Prod.snd = rng.map fun k => (E.split k).2 := by cases rng <;> rfl
  have hk2 : (rng.map E.split).map Prod.fst = rng.map fun k => (E.split k).1 := by cases rng <;> rfl
  rw [callAndUpdate] at ht
  simp only [List.isEmpty_cons, Bool.false_eq_true, if_false] at ht
  rcases hl : serialLoop E tr (l₂ :: ls) (.many [y]) (rng.map fun k => (E.split k).1) with e | ⟨o, q⟩
  · rw [hl] at ht; cases ht
  rw [hl] at ht
  simp only [bind, Except.bind, pure, Except.pure, Except.ok.injEq, Prod.mk.injEq, Layer.serial.injEq] at ht
  obtain ⟨rfl, rfl⟩ := ht
  have hl' : serialLoop E tr (l₂ :: ls) (.one y) (rng.map fun k => (E.split k).1) = .ok (.one z, q) := by
    rw [serialLoop] at hl ⊢; exact hl
  rw [callAndUpdate]
  simp only [List.isEmpty_cons, Bool.false_eq_true, if_false]
  rw [serialLoop]
  simp only [hk1, hk2, Out.args, h, bind, Except.bind, hl', pure, Except.pure]

theorem serial_one_ok (E : Env) (tr : Bool) (l : Layer) (x y : Arr) (rng : Option Nat) (l')
    (h : callAndUpdate E tr l [x] (rng.map fun k => (E.split k).2) = .ok (.one y, l')) :
    callAndUpdate E tr (.serial [l]) [x] rng = .ok (.one y, .serial [l']) := by
  have hk1 : (rng.map E.split).map Prod.snd = rng.map fun k => (E.split k).2 := by cases rng <;> rfl
  rw [callAndUpdate]
  simp only [List.isEmpty_cons, Bool.false_eq_true, if_false]
  rw [serialLoop]
  simp only [hk1, Out.args, h, bind, Except.bind, serialLoop, pure, Except.pure]

theorem callAndUpdate_serial_form (E : Env) (tr : Bool) (ls : List Layer) (xs : List Arr) (rng : Option Nat) (o l')
    (h : callAndUpdate E tr (.serial ls) xs rng = .ok (o, l')) : ∃ ls', l' = .serial ls' := by
  rw [callAndUpdate] at h
  by_cases he : ls.isEmpty
  · rw [if_pos he] at h; cases h
  · rw [if_neg he] at h
    rcases hl : serialLoop E tr ls (.many xs) rng with e | ⟨o, q⟩
    · rw [hl] at h; cases h
    · rw [hl] at h
      simp only [bind, Except.bind, pure, Except.pure, Except.ok.injEq, Prod.mk.injEq] at h
      exact ⟨q, h.2.symm⟩

/-- **C70, inference.**  With `training=False` the outputs of the examples of a batch are those of the examples one by
one, also with `BatchNorm` (the updates are not). -/
theorem C70_inference_lanes {B : Nat} (E : Env) (l : Layer) (xs : Fin B → Arr) (rng : Option Nat) (ys : Fin B → Arr)
    (l' : Layer) (h : BatchRun E false l xs rng ys l') (i : Fin B) :
    ∃ l'', callAndUpdate E false l [xs i] rng = .ok (.one (ys i), l'') := by
  generalize htr : false = tr at h
  induction h with
  | leaf tr l xs rng ys hb hs h =>
    refine ⟨l, ?_⟩
    rw [cau_leafBoth E _ l hs, (leafBoth_ok E tr l (xs i) rng (ys i) l).2 ⟨h i, leafUpdate_id _ _ hb⟩]
    rfl
  | train => cases htr
  | infer bn xs rng hne h =>
    obtain ⟨r, hr⟩ := (bn_stage E false bn (xs i) rng).2 ⟨h i, hne (Nat.lt_of_le_of_lt (Nat.zero_le _) i.2)⟩
    refine ⟨r.2, ?_⟩
    rw [cau_leafBoth E _ _ (by simp), hr]
    have h1 := ((leafBoth_ok E false _ _ _ r.1 r.2).1 hr).1
    simp only [leafCall, bnCall, h i, ne_eq, not_true, if_false, Bool.false_eq_true] at h1
    simp only [Except.map, Except.ok.inj h1]
  | last tr l xs rng ys l' _ ih =>
    obtain ⟨l'', h⟩ := ih htr
    exact ⟨_, serial_one_ok E _ l _ _ rng l'' h⟩
  | more tr l l₂ ls xs rng ys zs l' ls' _ _ ih1 ih2 =>
    obtain ⟨l1, h1⟩ := ih1 htr
    obtain ⟨l2, h2⟩ := ih2 htr
    obtain ⟨q, rfl⟩ := callAndUpdate_serial_form _ _ _ _ _ _ _ h2
    exact ⟨_, serial_cons_ok E _ l l₂ ls _ _ _ rng _ _ h1 h2⟩

/-- Without the hypothesis on the key the property is false of the code: with one key per example, the "output of an
example" of `BatchNorm` is a whole batch, and the arrays of the updated layer get a batch axis. -/
theorem C70_mapped_key_wrong {B : Nat} (E : Env) (tr : Bool) (R : Rep B) (bn : BN) (xs : Fin B → Arr) (ax : Nat)
    (keys : Fin B → Nat) (hne : bn.shape ≠ []) (h : ∀ i, (xs i).shape = bn.shape) (hbn : bn.WF) :
    ∃ ys bn', vCall E tr R (.leaf (.all (.batchNorm bn))) [.mapped 0 xs] (some (.mapped ax keys)) =
        .ok (.one (.mapped 0 ys), .leaf (.all (.batchNorm bn'))) ∧
      (∀ i, (ys i).shape = B :: bn.shape) ∧ bn'.movingMean.shape = B :: movingShape bn.axis 0 bn.shape ∧ ¬ bn'.WF := by
  obtain ⟨r, hr⟩ := (seqE_exists (fun i => leafBoth E tr (.batchNorm bn) ((BV.mapped 0 xs).at i)
    (Option.map (·.at i) (some (BV.mapped ax keys))))).2 fun i => (bn_stage E tr bn (xs i) _).2 ⟨h i, hne⟩
  have hm : (bnUpdateBatched bn (List.ofFn xs)).movingMean.shape = movingShape bn.axis 0 bn.shape := by
    simp only [bnUpdateBatched, decayTowards]; exact hbn.1
  refine ⟨fun _ => stackArr (bnBatched bn tr xs) bn.shape, tileBN B (bnUpdateBatched bn (List.ofFn xs)), ?_,
    fun i => rfl, ?_, ?_⟩
  · simp only [vCall, vLeaf, vBatchNorm, hr]
    rfl
  · simp only [tileBN, tile, stackArr]
    rw [hm]
  · rintro ⟨h1, -⟩
    simp only [tileBN, tile, stackArr] at h1
    rw [hm] at h1
    have := congrArg List.length h1
    simp only [List.length_cons] at this
    exact absurd this (Nat.succ_ne_self _)

/-- A batch along another axis, and an example that is not mapped while the key is, raise. -/
theorem C70_assertions {B : Nat} (E : Env) (tr : Bool) (R : Rep B) (bn : BN) (xs : Fin B → Arr) (ax : Nat)
    (keys : Fin B → Nat) (hne : bn.shape ≠ []) (x : Arr) (h : ∀ i, (xs i).shape = bn.shape) (hx : x.shape = bn.shape)
    (rng : Option (BV B Nat)) :
    vCall E tr R (.leaf (.all (.batchNorm bn))) [.mapped (ax + 1) xs] rng = .error .assertion ∧
    vCall E tr R (.leaf (.all (.batchNorm bn))) [.all x] (some (.mapped ax keys)) = .error .assertion := by
  constructor
  · obtain ⟨r, hr⟩ := (seqE_exists (fun i => leafBoth E tr (.batchNorm bn) ((BV.mapped (ax + 1) xs).at i)
      (Option.map (·.at i) rng))).2 fun i => (bn_stage E tr bn (xs i) _).2 ⟨h i, hne⟩
    simp only [vCall, vLeaf, vBatchNorm, hr]
    rfl
  · obtain ⟨r, hr⟩ := (seqE_exists (fun i => leafBoth E tr (.batchNorm bn) ((BV.all x : BV B Arr).at i)
      (Option.map (·.at i) (some (BV.mapped ax keys))))).2 fun i => (bn_stage E tr bn x _).2 ⟨hx, hne⟩
    simp only [vCall, vLeaf, vBatchNorm, hr]
    rfl

/-! ### Nothing mapped -/

/-- An output that is not mapped. -/
def Out.lift (B : Nat) : Out → VOut B
  | .one a => .one (.all a)
  | .many as => .many (as.map .all)

/-- The batching rules of JAX do not map what depends on no mapped value. -/
def Rep.Quiet {B : Nat} (R : Rep B) : Prop :=
  ∀ l x (k : Option Nat) a, R.rep (.all l) (.all x) (k.map .all) (fun _ => a) = .all a

theorem seqE_const {α : Type} (e : Except Err α) : ∀ {B : Nat}, 0 < B → seqE (fun _ : Fin B => e) = e.map (fun a _ => a)
  | 0, h => absurd h (Nat.lt_irrefl 0)
  | 1, _ => by
    cases e with
    | error e => rfl
    | ok a =>
      refine (seqE_ok _ _).2 fun i => rfl
  | n + 2, _ => by
    have ih := seqE_const e (B := n + 1) (Nat.succ_pos n)
    cases e with
    | error e => rfl
    | ok a => exact (seqE_ok _ _).2 fun i => rfl

theorem map_all_at {B : Nat} (rng : Option Nat) (i : Fin B) : (rng.map (BV.all (B := B))).map (·.at i) = rng := by
  cases rng <;> rfl

theorem leafBoth_same (E : Env) (tr : Bool) (l : Layer) (hb : ∀ bn, l ≠ .batchNorm bn) (x : Arr) (rng : Option Nat)
    (r) (h : leafBoth E tr l x rng = .ok r) : r.2 = l := by
  have h2 := ((leafBoth_ok E tr l x rng r.1 r.2).1 h).2
  rw [leafUpdate_id x l hb] at h2
  exact (Except.ok.inj h2).symm

theorem leafBoth_leaf (E : Env) (tr : Bool) (l : Layer) (hs : ∀ ls, l ≠ .serial ls) (x : Arr) (rng : Option Nat)
    (r) (h : leafBoth E tr l x rng = .ok r) : ∀ ls, r.2 ≠ .serial ls := by
  by_cases hb : ∀ bn, l ≠ .batchNorm bn
  · rw [leafBoth_same E tr l hb x rng r h]; exact hs
  · simp only [not_forall, not_not] at hb
    obtain ⟨bn, rfl⟩ := hb
    have h2 := ((leafBoth_ok E tr _ x rng r.1 r.2).1 h).2
    simp only [leafUpdate] at h2
    rcases hu : bnUpdate bn x with e | b
    · rw [hu] at h2; cases h2
    · rw [hu] at h2
      intro ls hls
      rw [hls] at h2
      cases h2

theorem vLeaf_quiet {B : Nat} (hB : 0 < B) (E : Env) (tr : Bool) (R : Rep B) (hR : R.Quiet) (l : Layer)
    (x : Arr) (rng : Option Nat) :
    vLeaf E tr R (.all l) (.all x) (rng.map .all) =
      (leafBoth E tr l x rng).map (fun r => (.one (.all r.1), .leaf (.all r.2))) := by
  by_cases hb : ∀ bn, l ≠ .batchNorm bn
  · rw [vLeaf_generic E tr R (.all l) _ _ (by intro bn h; exact hb bn (by injection h)), vGeneric]
    have hf : (fun i => leafBoth E tr ((BV.all l : BV B Layer).at i) ((BV.all x : BV B Arr).at i)
        ((rng.map (BV.all (B := B))).map (·.at i))) = fun _ => leafBoth E tr l x rng := by
      funext i; rw [map_all_at]; rfl
    rw [hf, seqE_const _ hB]
    rcases h : leafBoth E tr l x rng with e | r
    · rfl
    · simp only [Except.map, bind, Except.bind, pure, Except.pure, newLeaf, hR l x rng r.1,
        leafBoth_same E tr l hb x rng r h]
  · simp only [not_forall, not_not] at hb
    obtain ⟨bn, rfl⟩ := hb
    simp only [vLeaf, any_all, Bool.false_eq_true, if_false]
    cases rng <;>
    · simp only [Option.map, Option.bind]
      rcases leafBoth E tr _ x _ with e | r <;> rfl

mutual
theorem vCall_quiet {B : Nat} (hB : 0 < B) (E : Env) (tr : Bool) (R : Rep B) (hR : R.Quiet) : ∀ (l : Layer)
    (args : List Arr) (rng : Option Nat),
    vCall E tr R (l.lift B) (args.map .all) (rng.map .all) =
      (callAndUpdate E tr l args rng).map (fun r => (r.1.lift B, r.2.lift B))
  | .serial ls, args, rng => by
    have h := vLoop_quiet hB E tr R hR ls (.many args) rng
    simp only [Out.lift] at h
    simp only [Layer.lift, vCall, callAndUpdate, h]
    have he : (liftAll B ls).isEmpty = ls.isEmpty := by cases ls <;> rfl
    rw [he]
    by_cases hl : ls.isEmpty
    · simp only [hl, if_true]; rfl
    · simp only [hl, Bool.false_eq_true, if_false]
      rcases serialLoop E tr ls (.many args) rng with e | r
      · rfl
      · rfl
  | .dense k b, args, rng => leaf_quiet hB E tr R hR _ (by simp) args rng
  | .dropout r, args, rng => leaf_quiet hB E tr R hR _ (by simp) args rng
  | .act a, args, rng => leaf_quiet hB E tr R hR _ (by simp) args rng
  | .flatten, args, rng => leaf_quiet hB E tr R hR _ (by simp) args rng
  | .reshape d, args, rng => leaf_quiet hB E tr R hR _ (by simp) args rng
  | .conv k b s p, args, rng => leaf_quiet hB E tr R hR _ (by simp) args rng
  | .deconv k b s p, args, rng => leaf_quiet hB E tr R hR _ (by simp) args rng
  | .pool k w s p, args, rng => leaf_quiet hB E tr R hR _ (by simp) args rng
  | .batchNorm bn, args, rng => leaf_quiet hB E tr R hR _ (by simp) args rng
theorem vLoop_quiet {B : Nat} (hB : 0 < B) (E : Env) (tr : Bool) (R : Rep B) (hR : R.Quiet) : ∀ (ls : List Layer)
    (args : Out) (rng : Option Nat),
    vLoop E tr R (liftAll B ls) (args.lift B) (rng.map .all) =
      (serialLoop E tr ls args rng).map (fun r => (r.1.lift B, liftAll B r.2))
  | [], args, rng => by simp only [liftAll, vLoop, serialLoop, Except.map]
  | l :: ls, args, rng => by
    have ha : (args.lift B).args = args.args.map .all := by cases args <;> rfl
    have hk1 : ((rng.map BV.all).map (splitBV (B := B) E)).map Prod.snd = (rng.map fun k => (E.split k).2).map .all := by
      cases rng <;> rfl
    have hk2 : ((rng.map BV.all).map (splitBV (B := B) E)).map Prod.fst = (rng.map fun k => (E.split k).1).map .all := by
      cases rng <;> rfl
    have hk3 : (rng.map E.split).map Prod.snd = rng.map fun k => (E.split k).2 := by cases rng <;> rfl
    have hk4 : (rng.map E.split).map Prod.fst = rng.map fun k => (E.split k).1 := by cases rng <;> rfl
    simp only [liftAll, vLoop, serialLoop, ha, hk1, hk2, hk3, hk4]
    rw [vCall_quiet hB E tr R hR l]
    rcases callAndUpdate E tr l args.args (rng.map fun k => (E.split k).2) with e | r
    · rfl
    · simp only [Except.map, bind, Except.bind]
      rw [vLoop_quiet hB E tr R hR ls r.1]
      rcases serialLoop E tr ls r.1 (rng.map fun k => (E.split k).1) with e | q
      · rfl
      · rfl
theorem leaf_quiet {B : Nat} (hB : 0 < B) (E : Env) (tr : Bool) (R : Rep B) (hR : R.Quiet) (l : Layer)
    (hs : ∀ ls, l ≠ .serial ls) : ∀ (args : List Arr) (rng : Option Nat),
    vCall E tr R (l.lift B) (args.map .all) (rng.map .all) =
      (callAndUpdate E tr l args rng).map (fun r => (r.1.lift B, r.2.lift B))
  | [], rng => by rw [lift_leaf B l hs, cau_arity E tr l hs _ _ (by simp)]; rfl
  | [x], rng => by
    rw [lift_leaf B l hs, cau_leafBoth E tr l hs]
    simp only [List.map, vCall]
    rw [vLeaf_quiet hB E tr R hR]
    rcases h : leafBoth E tr l x rng with e | r
    · rfl
    · simp only [Except.map, Out.lift, lift_leaf B r.2 (leafBoth_leaf E tr l hs x rng r h)]
  | a :: b :: c, rng => by rw [lift_leaf B l hs, cau_arity E tr l hs _ _ (by simp)]; rfl
end

/-- **C70, nothing mapped.**  Inside `jax.vmap`, a call of a network that depends on no mapped value returns what it
returns outside — also with `BatchNorm`, and also its update — and that is not mapped. -/
theorem C70_nothing_mapped {B : Nat} (hB : 0 < B) (E : Env) (tr : Bool) (R : Rep B) (hR : R.Quiet) (l : Layer)
    (args : List Arr) (rng : Option Nat) :
    vCall E tr R (l.lift B) (args.map .all) (rng.map .all) =
      (callAndUpdate E tr l args rng).map (fun r => (r.1.lift B, r.2.lift B)) :=
  vCall_quiet hB E tr R hR l args rng

/-! ### Instances -/

/-- JAX's rules when only what depends on a mapped value is mapped. -/
noncomputable def quietRep (B : Nat) (hB : 0 < B) : Rep B where
  rep l x r f :=
    haveI := Classical.propDecidable
    if !l.isMapped && !x.isMapped && !(r.any (·.isMapped)) && decide (∀ i, f i = f ⟨0, hB⟩) then .all (f ⟨0, hB⟩)
    else .mapped 0 f
  lanes l x r f i := by
    split
    · rename_i h
      simp only [Bool.and_eq_true, decide_eq_true_eq] at h
      exact (h.2 i).symm
    · rfl

example : (quietRep 3 (by decide)).Quiet ∧ (quietRep 3 (by decide)).Front := by
  constructor
  · intro l x k a
    cases k <;> simp [quietRep, BV.isMapped]
  · intro l xs r f
    simp [quietRep, BV.isMapped]

/-- JAX's rules that keep the batch axis in front. -/
def frontRep (B : Nat) : Rep B := ⟨fun _ _ _ f => .mapped 0 f, fun _ _ _ _ _ => rfl⟩

/-- A network with `BatchNorm` in the middle, on a batch of two examples: the hypotheses of the theorems are met. -/
example (E : Env) : (frontRep 2).Front ∧ ∃ ys l', BatchRun E true
    (.serial [.act .relu, .batchNorm ⟨none, none, ⟨[1], [0]⟩, ⟨[1], [1]⟩, [0], 1, 1, [2]⟩, .act .tanh])
    (![⟨[2], [1, 2]⟩, ⟨[2], [3, 4]⟩] : Fin 2 → Arr) none ys l' := by
  refine ⟨fun _ _ _ _ => rfl, ?_⟩
  have hr : ∀ (xs : Fin 2 → Arr) (r : Option Nat), BatchRun E true (.act .relu) xs r
      (fun i => { xs i with data := (xs i).data.map fun v => max v 0 }) (.act .relu) :=
    fun xs r => .leaf _ _ _ _ _ (by simp) (by simp) fun i => rfl
  have ht : ∀ (xs : Fin 2 → Arr) (r : Option Nat), BatchRun E true (.act .tanh) xs r
      (fun i => { xs i with data := (xs i).data.map Real.tanh }) (.act .tanh) :=
    fun xs r => .leaf _ _ _ _ _ (by simp) (by simp) fun i => rfl
  refine ⟨_, _, .more _ _ _ _ _ _ _ _ _ _ (hr _ _)
    (.more _ _ _ _ _ _ _ _ _ _ (.train _ _ _ (by simp) ?_) (.last _ _ _ _ _ _ (ht _ _)))⟩
  intro i; fin_cases i <;> rfl

/-- A plain network, with one key per example and with whole layers mapped. -/
example (k b : Fin 3 → Arr) : (VLayer.serial [.leaf (.mapped 0 fun i => .dense (k i) (b i)), .leaf (.all (.dropout 1)),
    .leaf (.mapped 0 fun _ => .batchNorm ⟨none, none, ⟨[1], [0]⟩, ⟨[1], [1]⟩, [0], 1, 1, [2]⟩)]).Plain := by
  simp [VLayer.Plain, PlainAll, BV.at]

end Verif.NN
