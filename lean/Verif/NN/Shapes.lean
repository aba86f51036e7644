import Verif.NN.Model

namespace Verif.NN

/-- Not a `Serial`. -/
def Layer.IsLeaf : Layer → Prop
  | .serial _ => False
  | _ => True

/-- Not a `Serial`. -/
def Template.IsLeaf : Template → Prop
  | .serial _ => False
  | _ => True

/-- A leaf layer applied to one array. -/
noncomputable def leafCau (E : Env) (tr : Bool) (l : Layer) (args : List Arr) (rng : Option Nat) :
    Except Err (Out × Layer) :=
  match args with
  | [x] => do
    let y ← leafCall E tr rng x l
    let l' ← leafUpdate x l
    pure (.one y, l')
  | _ => .error .arity

theorem cau_leaf (E : Env) (tr : Bool) (l : Layer) (h : l.IsLeaf) (args : List Arr)
    (rng : Option Nat) : callAndUpdate E tr l args rng = leafCau E tr l args rng := by
  cases l <;> first | exact h.elim | skip
  all_goals
    rcases args with _ | ⟨x, _ | ⟨y, args⟩⟩ <;> simp only [callAndUpdate, leafCau]

theorem spec_leaf (t : Template) (h : t.IsLeaf) (s : Spec) :
    spec t [s] = (leafSpec s t).map .one := by
  cases t <;> first | exact h.elim | rfl

theorem spec_leaf_arity (t : Template) (h : t.IsLeaf) {ss : List Spec} (hs : ss.length ≠ 1) :
    spec t ss = .error .arity := by
  rcases ss with _ | ⟨x, _ | ⟨y, args⟩⟩
  · cases t <;> first | exact h.elim | rfl
  · exact (hs rfl).elim
  · cases t <;> first | exact h.elim | rfl

theorem init_leaf (E : Env) (t : Template) (h : t.IsLeaf) (k : Nat) (s : List Nat) :
    init E t (some k) [s] = leafInit E k s t := by
  cases t <;> first | exact h.elim | rfl

theorem init_leaf_arity (E : Env) (t : Template) (h : t.IsLeaf) (k : Nat) {ss : List (List Nat)}
    (hs : ss.length ≠ 1) : init E t (some k) ss = .error .arity := by
  rcases ss with _ | ⟨x, _ | ⟨y, args⟩⟩
  · cases t <;> first | exact h.elim | rfl
  · exact (hs rfl).elim
  · cases t <;> first | exact h.elim | rfl

theorem leafInit_isLeaf (E : Env) (t : Template) (k : Nat) (s : List Nat) {l : Layer}
    (h : leafInit E k s t = .ok l) : l.IsLeaf := by
  cases t
  case dense d =>
    simp only [leafInit] at h
    split at h
    · cases h
    · cases h; trivial
  case reshape d =>
    cases d
    · cases h
    · cases h; trivial
  case conv =>
    simp only [leafInit] at h
    split at h
    · cases h; trivial
    · cases h
  case deconv =>
    simp only [leafInit] at h
    split at h
    · cases h; trivial
    · cases h
  all_goals first | (cases h; trivial) | cases h

theorem ofDims_toDims (s : List Nat) : toDims (ofDims s) = .ok s := by
  unfold toDims ofDims
  rw [if_pos (by simp)]
  rw [List.map_map]
  have : Int.toNat ∘ Int.ofNat = id := rfl
  rw [this, List.map_id]

/-- No inferred (`-1`) or otherwise negative dimensions. -/
def leafNoInfer : Template → Prop
  | .reshape (.seq dims) => ∀ d ∈ dims, 0 ≤ d
  | _ => True

/-- `Deconv` with strides is not given an empty image. -/
def leafDeconvOk (s : Spec) : Template → Prop
  | .deconv _ _ st _ _ => st.getD (1, 1) = (1, 1) ∨ ∀ d ∈ s, d ≠ 0
  | _ => True

theorem reshape_shape {dims : List Int} (h0 : ∀ d ∈ dims, 0 ≤ d) {x y : Arr}
    (h : reshapeApply dims x = .ok y) : ofDims y.shape = dims := by
  unfold reshapeApply at h
  have hc : dims.count (-1) = 0 := by
    rw [List.count_eq_zero]; intro hm; have := h0 _ hm; omega
  have hf : dims.filter (· ≠ -1) = dims := by
    rw [List.filter_eq_self]; intro d hd; have := h0 d hd; simp; omega
  simp only [hc, hf] at h
  split_ifs at h
  cases h
  simp only [ofDims, List.map_map]
  conv_rhs => rw [← List.map_id dims]
  refine List.map_congr_left fun d hd => ?_
  have := h0 d hd
  simp only [Function.comp_apply, id]
  exact Int.toNat_of_nonneg this

theorem prod_ofDims (s : List Nat) : (ofDims s).prod = (s.prod : Int) := by
  induction s with
  | nil => rfl
  | cons d s ih =>
    simp only [ofDims, List.map_cons, List.prod_cons] at ih ⊢
    rw [ih]; simp

theorem convApply_shape {kernel : Arr} {bias : Option Arr} {st : Nat × Nat} {same : Bool} {x y : Arr}
    {h w c kh kw c' o : Nat} (hx : x.shape = [h, w, c]) (hk : kernel.shape = [kh, kw, c', o])
    (hy : convApply kernel bias st same x = .ok y) :
    (0 < st.1 ∧ 0 < st.2) ∧ y.shape = [windowOut same h kh st.1, windowOut same w kw st.2, o] := by
  unfold convApply at hy
  rw [hx, hk] at hy
  simp only [] at hy
  split at hy
  · rename_i hcond
    cases hy
    exact ⟨hcond.2, rfl⟩
  · cases hy

theorem deconvOut_spec {same : Bool} {n k s : Nat} (hs : 0 < s) (hk : 0 < k) (hn : s = 1 ∨ n ≠ 0) :
    deconvSpec same n k s = deconvOut same n k s := by
  unfold deconvSpec deconvOut deconvTotal dilated
  rcases Nat.eq_zero_or_pos n with h0 | h0
  · have h1 : s = 1 := by omega
    subst h0 h1
    cases same <;> simp <;> omega
  · obtain ⟨m, rfl⟩ : ∃ m, n = m + 1 := ⟨n - 1, by omega⟩
    rw [if_neg (show ¬ m + 1 = 0 by omega), Nat.add_sub_cancel]
    push_cast
    rw [add_sub_cancel_right]
    have : 0 ≤ (m : Int) * s := by positivity
    generalize (m : Int) * s = z at *
    cases same <;> simp only [reduceIte, Bool.false_eq_true] <;> omega

theorem deconvApply_shape {kernel : Arr} {bias : Option Arr} {st : Nat × Nat} {same : Bool} {x y : Arr}
    {h w c kh kw c' o : Nat} (hx : x.shape = [h, w, c]) (hk : kernel.shape = [kh, kw, c', o])
    (hy : deconvApply kernel bias st same x = .ok y) :
    (0 < st.1 ∧ 0 < st.2 ∧ 0 < kh ∧ 0 < kw) ∧ y.shape = [deconvOut same h kh st.1, deconvOut same w kw st.2, o] := by
  unfold deconvApply at hy
  rw [hx, hk] at hy
  simp only [] at hy
  split at hy
  · rename_i hcond
    cases hy
    exact ⟨hcond.2, rfl⟩
  · cases hy

theorem poolApply_shape {kind : PoolKind} {w st : List Nat} {same : Bool} {x y : Arr}
    (hy : poolApply kind w st same x = .ok y) :
    ¬ 3 < x.shape.length ∧ ((1 :: x.shape).length = (1 :: w ++ [1]).length ∧
      w.length = st.length ∧ st.all (0 < ·)) ∧
      y.shape = (windowShape same (1 :: x.shape) (1 :: w ++ [1]) (1 :: st ++ [1])).tail := by
  unfold poolApply at hy
  split at hy
  · cases hy
  rename_i hr
  refine ⟨hr, ?_⟩
  simp only [poolBatched, bind, Except.bind] at hy
  unfold reduceWindow at hy
  split at hy
  · cases hy
  rename_i v hv
  split at hv
  · rename_i hcond
    cases hv
    obtain ⟨h1, h2, h3⟩ := hcond
    refine ⟨⟨h1, by simpa using h2, by simpa using h3⟩, ?_⟩
    cases hy
    rfl
  · cases hv

theorem bnCall_shape {bn : BN} {tr : Bool} {x y : Arr} (hy : bnCall bn tr x = .ok y) :
    y.shape = x.shape := by
  unfold bnCall at hy
  split at hy
  · cases hy
  split at hy
  · cases hy; rfl
  split at hy
  · cases hy
  · rename_i h
    cases hy
    exact (not_not.1 h).symm

theorem leaf_shape (E : Env) (tr : Bool) (t : Template) (ht : leafNoInfer t) (k : Nat)
    (rng : Option Nat) (x y : Arr) (hd : leafDeconvOk (ofDims x.shape) t) (l : Layer) (hi : leafInit E k x.shape t = .ok l)
    (hc : leafCall E tr rng x l = .ok y) : leafSpec (ofDims x.shape) t = .ok (ofDims y.shape) := by
  cases t with
  | dense d =>
    simp only [leafInit] at hi
    split at hi
    · cases hi
    · rename_i dimIn hl
      cases hi
      simp only [leafCall, denseApply] at hc
      rw [if_pos hl] at hc
      cases hc
      simp only [leafSpec, ofDims, List.map_append, List.map_dropLast]
      rfl
  | dropout r =>
    cases hi
    simp only [leafCall, dropoutApply] at hc
    split_ifs at hc
    · split at hc
      · cases hc
      · cases hc; rfl
    · cases hc; rfl
  | act a =>
    cases hi
    simp only [leafCall] at hc
    cases a <;> simp only [actApply] at hc
    · cases hc; rfl
    · cases hc; rfl
    · cases hc; rfl
    · split at hc
      · cases hc
      · cases hc; rfl
    · split at hc
      · cases hc
      · cases hc; rfl
  | flatten =>
    cases hi
    simp only [leafCall] at hc
    have := reshape_shape (dims := [(x.shape.prod : Int)])
      (by intro d hd; rw [List.mem_singleton.1 hd]; exact Int.natCast_nonneg _) hc
    rw [this]
    simp only [leafSpec, prod_ofDims]
  | reshape d =>
    cases d with
    | int n => cases hi
    | seq dims =>
      cases hi
      simp only [leafCall] at hc
      rw [reshape_shape ht hc]; rfl
  | conv o f st p b =>
    simp only [leafInit] at hi
    split at hi
    · rename_i h w c hs
      cases hi
      obtain ⟨h1, h2⟩ := convApply_shape hs rfl hc
      simp only [leafSpec, ofDims_toDims, hs, bind, Except.bind]
      rw [if_pos h1, h2]; rfl
    · cases hi
  | deconv o f st p b =>
    simp only [leafInit] at hi
    split at hi
    · rename_i h w c hs
      cases hi
      obtain ⟨⟨h1, h2, h3, h4⟩, h5⟩ := deconvApply_shape hs rfl hc
      have e1 : (st.getD (1, 1)).1 = 1 ∨ h ≠ 0 := by
        rcases hd with hd | hd
        · left; rw [hd]
        · right; simp only [hs, ofDims] at hd; simpa using hd h (by simp)
      have e2 : (st.getD (1, 1)).2 = 1 ∨ w ≠ 0 := by
        rcases hd with hd | hd
        · left; rw [hd]
        · right; simp only [hs, ofDims] at hd; simpa using hd w (by simp)
      rw [h5, hs]
      simp only [leafSpec, ofDims, List.map_cons, List.map_nil]
      rw [show Int.ofNat h = (h : Int) from rfl, show Int.ofNat w = (w : Int) from rfl, deconvOut_spec h1 h3 e1,
        deconvOut_spec h2 h4 e2]
      rfl
    · cases hi
  | pool kind w st p =>
    cases hi
    obtain ⟨h1, h2, h3⟩ := poolApply_shape hc
    simp only [leafSpec, ofDims_toDims, bind, Except.bind]
    rw [if_neg h1, if_pos h2, h3]; rfl
  | batchNorm a m e c sc =>
    simp only [leafInit] at hi
    injection hi with hi
    subst hi
    rw [bnCall_shape hc]; rfl
  | serial ts => cases hi

mutual
/-- No inferred dimensions anywhere. -/
def NoInfer : Template → Prop
  | .serial ts => NoInferAll ts
  | t => leafNoInfer t
/-- No inferred dimensions in a list. -/
def NoInferAll : List Template → Prop
  | [] => True
  | t :: ts => NoInfer t ∧ NoInferAll ts
end

mutual
/-- No `Deconv` with strides gets an empty image, going by the specs. -/
def DeconvOk : Template → List Spec → Prop
  | .serial ts, ss => DeconvOkAll ts (.many ss)
  | t, ss => ∀ s, ss = [s] → leafDeconvOk s t
/-- No `Deconv` with strides of a list gets an empty image: each gets what the spec of the one before says. -/
def DeconvOkAll : List Template → SpecOut → Prop
  | [], _ => True
  | t :: ts, ss => DeconvOk t ss.args ∧ ∀ so, spec t ss.args = .ok so → DeconvOkAll ts so
end

/-- The spec says exactly the shapes of the output. -/
def Agrees : SpecOut → Out → Prop
  | .one s, .one a => s = ofDims a.shape
  | .many ss, .many as => ss = as.map fun a => ofDims a.shape
  | _, _ => False

theorem Agrees.args {s : SpecOut} {o : Out} (h : Agrees s o) :
    s.args = o.args.map fun a => ofDims a.shape := by
  cases s <;> cases o
  · simp only [Agrees] at h; simp [SpecOut.args, Out.args, h]
  · exact h.elim
  · exact h.elim
  · exact h

theorem onesShapes_of (as : List Arr) :
    onesShapes (as.map fun a => ofDims a.shape) = .ok (as.map Arr.shape) := by
  induction as with
  | nil => rfl
  | cons a as ih =>
    simp only [List.map_cons, onesShapes, ofDims_toDims, bind, Except.bind, ih]
    rfl

theorem leaf_aux (E : Env) (tr : Bool) (t : Template) (hl : t.IsLeaf) (hn : NoInfer t) (k : Nat)
    (xs : List Arr) (hd : DeconvOk t (xs.map fun a => ofDims a.shape)) (rng : Option Nat) (l l' : Layer) (o : Out)
    (hi : init E t (some k) (xs.map Arr.shape) = .ok l)
    (hc : callAndUpdate E tr l xs rng = .ok (o, l')) :
    ∃ so, spec t (xs.map fun a => ofDims a.shape) = .ok so ∧ Agrees so o := by
  by_cases hx : xs.length = 1
  · obtain ⟨x, rfl⟩ := List.length_eq_one_iff.1 hx
    rw [List.map_cons, List.map_nil, init_leaf E t hl] at hi
    rw [cau_leaf E tr l (leafInit_isLeaf E t k _ hi)] at hc
    simp only [leafCau, bind, Except.bind] at hc
    split at hc
    · cases hc
    rename_i y hy
    split at hc
    · cases hc
    cases hc
    have hn' : leafNoInfer t := by
      cases t <;> first | exact hl.elim | (simp only [NoInfer] at hn; exact hn)
    have hd' : leafDeconvOk (ofDims x.shape) t := by
      cases t <;> first | exact hl.elim | (simp only [DeconvOk] at hd; exact hd _ rfl)
    have := leaf_shape E tr t hn' k rng x y hd' l hi hy
    refine ⟨.one (ofDims y.shape), ?_, rfl⟩
    rw [List.map_cons, List.map_nil, spec_leaf t hl, this]; rfl
  · rw [init_leaf_arity E t hl k (by simpa using hx)] at hi
    cases hi

mutual
theorem shape_aux (E : Env) (tr : Bool) : ∀ (t : Template), NoInfer t → ∀ (k : Nat) (xs : List Arr), DeconvOk t (xs.map fun a => ofDims a.shape) → ∀
    (rng : Option Nat) (l l' : Layer) (o : Out), init E t (some k) (xs.map Arr.shape) = .ok l →
    callAndUpdate E tr l xs rng = .ok (o, l') →
    ∃ so, spec t (xs.map fun a => ofDims a.shape) = .ok so ∧ Agrees so o
  | .serial ts, hn, k, xs, hd, rng, l, l', o, hi, hc => by
    simp only [init, bind, Except.bind] at hi
    split at hi
    · cases hi
    rename_i ls hls
    split_ifs at hi with he
    cases hi
    simp only [callAndUpdate, bind, Except.bind] at hc
    rw [if_neg he] at hc
    simp only [pure, Except.pure] at hc
    split at hc
    · cases hc
    rename_i r hr
    cases hc
    obtain ⟨so, h1, h2⟩ := shapeLoop_aux E tr ts (by simpa only [NoInfer] using hn) _ (.many xs)
      (.many (xs.map fun a : Arr => ofDims a.shape)) (show _ = _ from rfl)
      (by simpa only [DeconvOk] using hd) rng ls r.1 r.2 (by rw [E.splitN_length]) hls hr
    exact ⟨so, by rw [spec]; exact h1, h2⟩
  | .dense d, hn, k, xs, hd, rng, l, l', o, hi, hc => leaf_aux E tr (.dense d) trivial hn k xs hd rng l l' o hi hc
  | .dropout d, hn, k, xs, hd, rng, l, l', o, hi, hc => leaf_aux E tr (.dropout d) trivial hn k xs hd rng l l' o hi hc
  | .act d, hn, k, xs, hd, rng, l, l', o, hi, hc => leaf_aux E tr (.act d) trivial hn k xs hd rng l l' o hi hc
  | .flatten, hn, k, xs, hd, rng, l, l', o, hi, hc => leaf_aux E tr (.flatten) trivial hn k xs hd rng l l' o hi hc
  | .reshape d, hn, k, xs, hd, rng, l, l', o, hi, hc => leaf_aux E tr (.reshape d) trivial hn k xs hd rng l l' o hi hc
  | .conv a b c d e, hn, k, xs, hd, rng, l, l', o, hi, hc =>
    leaf_aux E tr (.conv a b c d e) trivial hn k xs hd rng l l' o hi hc
  | .deconv a b c d e, hn, k, xs, hd, rng, l, l', o, hi, hc =>
    leaf_aux E tr (.deconv a b c d e) trivial hn k xs hd rng l l' o hi hc
  | .pool a b c d, hn, k, xs, hd, rng, l, l', o, hi, hc =>
    leaf_aux E tr (.pool a b c d) trivial hn k xs hd rng l l' o hi hc
  | .batchNorm a b c d e, hn, k, xs, hd, rng, l, l', o, hi, hc =>
    leaf_aux E tr (.batchNorm a b c d e) trivial hn k xs hd rng l l' o hi hc
theorem shapeLoop_aux (E : Env) (tr : Bool) : ∀ (ts : List Template), NoInferAll ts →
    ∀ (ks : List Nat) (a : Out) (sa : SpecOut), Agrees sa a → DeconvOkAll ts sa → ∀ (rng : Option Nat)
    (ls : List Layer) (o : Out) (ls' : List Layer), ks.length = ts.length →
    initLoop E ts ks (a.args.map Arr.shape) = .ok ls →
    serialLoop E tr ls a rng = .ok (o, ls') →
    ∃ so, specLoop ts sa = .ok so ∧ Agrees so o
  | [], _, ks, a, sa, hag, hd, rng, ls, o, ls', _, hi, hc => by
    cases ks <;> (simp only [initLoop] at hi; cases hi; simp only [serialLoop] at hc; cases hc)
    all_goals exact ⟨sa, rfl, hag⟩
  | t :: ts, hn, [], a, sa, hag, hd, rng, ls, o, ls', hl, hi, hc => by simp at hl
  | t :: ts, hn, k :: ks, a, sa, hag, hd, rng, ls, o, ls', hl, hi, hc => by
    simp only [initLoop, bind, Except.bind] at hi
    split at hi
    · cases hi
    rename_i l0 hl0
    split at hi
    · cases hi
    rename_i s0 hs0
    split at hi
    · cases hi
    rename_i sh hsh
    split at hi
    · cases hi
    rename_i lrest hlrest
    cases hi
    simp only [serialLoop, bind, Except.bind] at hc
    split at hc
    · cases hc
    rename_i r hr
    split at hc
    · cases hc
    rename_i rest hrest
    cases hc
    obtain ⟨so, h1, h2⟩ := shape_aux E tr t hn.1 k a.args (hag.args ▸ hd.1) _ l0 r.2 r.1 hl0 hr
    have e : (a.args.map Arr.shape).map ofDims = a.args.map fun a => ofDims a.shape := by
      simp [Function.comp_def]
    rw [e, h1] at hs0
    injection hs0 with hs0
    subst hs0
    rw [h2.args, onesShapes_of] at hsh
    cases hsh
    obtain ⟨so', h3, h4⟩ := shapeLoop_aux E tr ts hn.2 ks r.1 so h2 (hd.2 so (hag.args ▸ h1)) _ lrest rest.1 rest.2
      (by simpa using hl) hlrest hrest
    refine ⟨so', ?_, h4⟩
    simp only [specLoop, bind, Except.bind]
    rw [hag.args, h1]
    exact h3
end

end Verif.NN
