/-
Properties of lists and tuples of stateful objects (C23).
-/
import Verif.State.Seq

namespace Verif.State.Seq

variable {V S K τ σ ε : Type} (step : σ → List (PyVal V) → Except ε (PyVal V × σ)) (emptyTuple : ε)

/-- `vs` are the values before, between and after the components, `ms'` the updated components: component `i`
is called on value `i` (spread if it is a tuple) and returns value `i+1`. -/
structure Threaded (ms : List (Obj σ)) (vs : List (PyVal V)) (ms' : List (Obj σ)) : Prop where
  values : vs.length = ms.length + 1
  modules : ms'.length = ms.length
  each : ∀ i o, ms[i]? = some o → ∃ v w o', vs[i]? = some v ∧ vs[i + 1]? = some w ∧ ms'[i]? = some o' ∧
    callAndUpdate step emptyTuple o (asArgs v) = .ok (w, o')

theorem chain_iff (ms : List (Obj σ)) : ∀ (v out : PyVal V) (ms' : List (Obj σ)),
    callChain step emptyTuple ms v = .ok (out, ms') ↔
      ∃ vs, Threaded step emptyTuple ms vs ms' ∧ vs[0]? = some v ∧ vs[ms.length]? = some out := by
  induction ms with
  | nil =>
    intro v out ms'
    constructor
    · intro h
      simp only [callChain, Except.ok.injEq, Prod.mk.injEq] at h
      obtain ⟨rfl, rfl⟩ := h
      exact ⟨[v], ⟨rfl, rfl, by simp⟩, rfl, rfl⟩
    · rintro ⟨vs, ⟨h1, h2, -⟩, h3, h4⟩
      simp only [List.length_nil] at h2 h4
      rw [h3] at h4
      simp only [Option.some.injEq] at h4
      rw [List.length_eq_zero_iff.1 h2, h4]
      rfl
  | cons o ms ih =>
    intro v out ms'
    constructor
    · intro h
      simp only [callChain] at h
      rcases h1 : callAndUpdate step emptyTuple o (asArgs v) with e | ⟨w, o'⟩ <;> rw [h1] at h
      · simp at h
      · simp only at h
        rcases h2 : callChain step emptyTuple ms w with e | ⟨out', ms2⟩ <;> rw [h2] at h
        · simp at h
        · simp only [Except.ok.injEq, Prod.mk.injEq] at h
          obtain ⟨rfl, rfl⟩ := h
          obtain ⟨vs, ⟨ha, hb, hc⟩, hd, he⟩ := (ih _ _ _).1 h2
          refine ⟨v :: vs, ⟨by simp [ha], by simp [hb], ?_⟩, rfl, by simpa using he⟩
          intro i o2 hi
          cases i with
          | zero =>
            simp only [List.getElem?_cons_zero, Option.some.injEq] at hi
            subst hi
            exact ⟨v, w, o', rfl, by simpa using hd, rfl, h1⟩
          | succ i => simpa using hc i o2 (by simpa using hi)
    · rintro ⟨vs, ⟨ha, hb, hc⟩, hd, he⟩
      obtain _ | ⟨v0, vs⟩ := vs
      · simp at ha
      obtain _ | ⟨o0, ms2⟩ := ms'
      · simp at hb
      simp only [List.getElem?_cons_zero, Option.some.injEq] at hd
      subst hd
      obtain ⟨v1, w, o', h1, h2, h3, h4⟩ := hc 0 o rfl
      simp only [List.getElem?_cons_zero, Option.some.injEq] at h1 h3
      subst h1 h3
      have := (ih w out ms2).2 ⟨vs, ⟨by simpa using ha, by simpa using hb, fun i o2 hi => by
        simpa using hc (i + 1) o2 (by simpa using hi)⟩, by simpa using h2, by simpa using he⟩
      simp only [callChain, h4, this]

/-- C23: calling a list threads the values through its components from left to right, and every component is
updated with the call it received. -/
theorem list_call_iff (ms : List (Obj σ)) (args : List (PyVal V)) (out : PyVal V) (o' : Obj σ) :
    callAndUpdate step emptyTuple (.lst ms) args = .ok (out, o') ↔
      ∃ vs ms', o' = .lst ms' ∧ Threaded step emptyTuple ms vs ms' ∧ vs[0]? = some (.tup args) ∧
        vs[ms.length]? = some out := by
  simp only [callAndUpdate]
  constructor
  · intro h
    rcases h1 : callChain step emptyTuple ms (.tup args) with e | ⟨out', ms'⟩ <;> rw [h1] at h <;>
      simp [Except.map] at h
    obtain ⟨rfl, rfl⟩ := h
    obtain ⟨vs, h2, h3, h4⟩ := (chain_iff step emptyTuple _ _ _ _).1 h1
    exact ⟨vs, ms', rfl, h2, h3, h4⟩
  · rintro ⟨vs, ms', rfl, h2, h3, h4⟩
    rw [(chain_iff step emptyTuple _ _ _ _).2 ⟨vs, h2, h3, h4⟩]
    rfl

/-- C23: a list fails exactly when one of its components fails on the value that reaches it. -/
theorem list_call_error (ms : List (Obj σ)) (args : List (PyVal V)) (e : ε) :
    callAndUpdate step emptyTuple (.lst ms) args = .error e ↔
      ∃ pre o post vs pre' v, ms = pre ++ o :: post ∧ Threaded step emptyTuple pre vs pre' ∧
        vs[0]? = some (.tup args) ∧ vs[pre.length]? = some v ∧
        callAndUpdate step emptyTuple o (asArgs v) = .error e := by
  have key : ∀ (ms : List (Obj σ)) (v : PyVal V), callChain step emptyTuple ms v = .error e ↔
      ∃ pre o post pre' w, ms = pre ++ o :: post ∧ callChain step emptyTuple pre v = .ok (w, pre') ∧
        callAndUpdate step emptyTuple o (asArgs w) = .error e := by
    intro ms
    induction ms with
    | nil => intro v; simp [callChain]
    | cons o ms ih =>
      intro v
      constructor
      · intro h
        simp only [callChain] at h
        rcases h1 : callAndUpdate step emptyTuple o (asArgs v) with e' | ⟨w, o'⟩ <;> rw [h1] at h
        · simp only [Except.error.injEq] at h
          subst h
          exact ⟨[], o, ms, [], v, rfl, rfl, h1⟩
        · simp only at h
          rcases h2 : callChain step emptyTuple ms w with e' | r <;> rw [h2] at h
          · simp only [Except.error.injEq] at h
            subst h
            obtain ⟨pre, o2, post, pre', w', rfl, h3, h4⟩ := (ih w).1 h2
            refine ⟨o :: pre, o2, post, o' :: pre', w', rfl, ?_, h4⟩
            simp only [callChain, h1, h3]
          · simp at h
      · rintro ⟨pre, o2, post, pre', w', h0, h3, h4⟩
        obtain _ | ⟨p, pre⟩ := pre
        · simp only [List.nil_append, List.cons.injEq] at h0
          obtain ⟨rfl, rfl⟩ := h0
          simp only [callChain, Except.ok.injEq, Prod.mk.injEq] at h3
          obtain ⟨rfl, rfl⟩ := h3
          simp only [callChain, h4]
        · simp only [List.cons_append, List.cons.injEq] at h0
          obtain ⟨rfl, rfl⟩ := h0
          simp only [callChain] at h3
          rcases h1 : callAndUpdate step emptyTuple o (asArgs v) with e' | ⟨w, o'⟩ <;> rw [h1] at h3
          · simp at h3
          · simp only at h3
            rcases h2 : callChain step emptyTuple pre w with e' | ⟨w2, pre2⟩ <;> rw [h2] at h3
            · simp at h3
            · simp only [Except.ok.injEq, Prod.mk.injEq] at h3
              obtain ⟨rfl, rfl⟩ := h3
              have := (ih w).2 ⟨pre, o2, post, pre2, w2, rfl, h2, h4⟩
              simp only [callChain, h1, this]
  simp only [callAndUpdate]
  constructor
  · intro h
    rcases h1 : callChain step emptyTuple ms (.tup args) with e' | r <;> rw [h1] at h <;>
      simp [Except.map] at h
    subst h
    obtain ⟨pre, o, post, pre', w, h2, h3, h4⟩ := (key _ _).1 h1
    obtain ⟨vs, h5, h6, h7⟩ := (chain_iff step emptyTuple _ _ _ _).1 h3
    exact ⟨pre, o, post, vs, pre', w, h2, h5, h6, h7, h4⟩
  · rintro ⟨pre, o, post, vs, pre', v, h2, h5, h6, h7, h4⟩
    rw [(key _ _).2 ⟨pre, o, post, pre', v, h2, (chain_iff step emptyTuple _ _ _ _).2 ⟨vs, h5, h6, h7⟩, h4⟩]
    rfl

/-- C23: a list of lists composes: calling `a ++ b` calls `a` and then `b` on its result. -/
theorem list_call_append (a b : List (Obj σ)) (args : List (PyVal V)) (out : PyVal V) (o' : Obj σ) :
    callAndUpdate step emptyTuple (.lst (a ++ b)) args = .ok (out, o') ↔
      ∃ v a' b', callAndUpdate step emptyTuple (.lst a) args = .ok (v, .lst a') ∧
        callChain step emptyTuple b v = .ok (out, b') ∧ o' = .lst (a' ++ b') := by
  have key : ∀ (a : List (Obj σ)) (v out : PyVal V) (ms' : List (Obj σ)),
      callChain step emptyTuple (a ++ b) v = .ok (out, ms') ↔ ∃ w a' b',
        callChain step emptyTuple a v = .ok (w, a') ∧ callChain step emptyTuple b w = .ok (out, b') ∧
        ms' = a' ++ b' := by
    intro a
    induction a with
    | nil =>
      intro v out ms'
      simp only [List.nil_append, callChain, Except.ok.injEq, Prod.mk.injEq]
      constructor
      · intro h; exact ⟨v, [], ms', ⟨rfl, rfl⟩, h, rfl⟩
      · rintro ⟨w, a', b', ⟨rfl, rfl⟩, h, rfl⟩; exact h
    | cons o a ih =>
      intro v out ms'
      simp only [List.cons_append, callChain]
      rcases h1 : callAndUpdate step emptyTuple o (asArgs v) with e' | ⟨w, o'⟩
      · simp
      · simp only
        constructor
        · intro h
          rcases h2 : callChain step emptyTuple (a ++ b) w with e' | ⟨w2, m2⟩ <;> rw [h2] at h
          · simp at h
          · simp only [Except.ok.injEq, Prod.mk.injEq] at h
            obtain ⟨rfl, rfl⟩ := h
            obtain ⟨w', a', b', h3, h4, rfl⟩ := (ih _ _ _).1 h2
            exact ⟨w', o' :: a', b', by rw [h3], h4, rfl⟩
        · rintro ⟨w', a', b', h3, h4, rfl⟩
          rcases h2 : callChain step emptyTuple a w with e' | ⟨w2, m2⟩ <;> rw [h2] at h3
          · simp at h3
          · simp only [Except.ok.injEq, Prod.mk.injEq] at h3
            obtain ⟨rfl, rfl⟩ := h3
            rw [(ih _ _ _).2 ⟨w2, m2, b', h2, h4, rfl⟩]
            rfl
  simp only [callAndUpdate]
  constructor
  · intro h
    rcases h1 : callChain step emptyTuple (a ++ b) (.tup args) with e' | ⟨w2, m2⟩ <;> rw [h1] at h <;>
      simp [Except.map] at h
    obtain ⟨rfl, rfl⟩ := h
    obtain ⟨w, a', b', h2, h3, rfl⟩ := (key _ _ _ _).1 h1
    exact ⟨w, a', b', by rw [h2]; rfl, h3, rfl⟩
  · rintro ⟨v, a', b', h2, h3, rfl⟩
    rcases h1 : callChain step emptyTuple a (.tup args) with e' | ⟨w2, m2⟩ <;> rw [h1] at h2 <;>
      simp [Except.map] at h2
    obtain ⟨rfl, rfl⟩ := h2
    rw [(key _ _ _ _).2 ⟨w2, m2, b', h1, h3, rfl⟩]
    rfl

theorem callAll_iff (ms : List (Obj σ)) (args : List (PyVal V)) : ∀ rs,
    callAll step emptyTuple ms args = .ok rs ↔ rs.length = ms.length ∧
      ∀ (i : Nat) o, ms[i]? = some o → ∃ r, rs[i]? = some r ∧ callAndUpdate step emptyTuple o args = .ok r := by
  induction ms with
  | nil =>
    intro rs
    simp only [callAll, Except.ok.injEq, List.length_nil]
    constructor
    · rintro rfl; simp
    · intro h; exact (List.length_eq_zero_iff.1 h.1).symm
  | cons o ms ih =>
    intro rs
    simp only [callAll]
    constructor
    · intro h
      rcases h1 : callAndUpdate step emptyTuple o args with e | r <;> rw [h1] at h
      · simp at h
      · simp only at h
        rcases h2 : callAll step emptyTuple ms args with e | rs2 <;> rw [h2] at h
        · simp at h
        · simp only [Except.ok.injEq] at h
          subst h
          obtain ⟨h3, h4⟩ := (ih rs2).1 h2
          refine ⟨by simp [h3], ?_⟩
          intro i o2 hi
          cases i with
          | zero => simp only [List.getElem?_cons_zero, Option.some.injEq] at hi; subst hi; exact ⟨r, rfl, h1⟩
          | succ i => simpa using h4 i o2 (by simpa using hi)
    · rintro ⟨h3, h4⟩
      obtain _ | ⟨r, rs⟩ := rs
      · simp at h3
      obtain ⟨r0, h5, h6⟩ := h4 0 o rfl
      simp only [List.getElem?_cons_zero, Option.some.injEq] at h5
      subst h5
      rw [h6]
      simp only
      rw [(ih rs).2 ⟨by simpa using h3, fun i o2 hi => by simpa using h4 (i + 1) o2 (by simpa using hi)⟩]

/-- C23: calling a tuple calls every component on the same arguments and returns the tuple of the outputs and
of the updated components; an empty tuple is rejected. -/
theorem tuple_call_iff (ms : List (Obj σ)) (args : List (PyVal V)) (out : PyVal V) (o' : Obj σ) :
    callAndUpdate step emptyTuple (.tup ms) args = .ok (out, o') ↔
      ms ≠ [] ∧ ∃ outs ms', out = .tup outs ∧ o' = .tup ms' ∧ outs.length = ms.length ∧
        ms'.length = ms.length ∧ ∀ (i : Nat) o, ms[i]? = some o → ∃ w o2, outs[i]? = some w ∧ ms'[i]? = some o2 ∧
          callAndUpdate step emptyTuple o args = .ok (w, o2) := by
  simp only [callAndUpdate]
  constructor
  · intro h
    rcases h1 : callAll step emptyTuple ms args with e | rs <;> rw [h1] at h
    · simp at h
    · obtain ⟨h2, h3⟩ := (callAll_iff step emptyTuple ms args rs).1 h1
      obtain _ | ⟨r, rs⟩ := rs
      · simp at h
      · simp only [Except.ok.injEq, Prod.mk.injEq] at h
        obtain ⟨rfl, rfl⟩ := h
        refine ⟨by rintro rfl; simp at h2, _, _, rfl, rfl, by simpa using h2, by simpa using h2, ?_⟩
        intro i o hi
        obtain ⟨q, h4, h5⟩ := h3 i o hi
        exact ⟨q.1, q.2, by rw [List.getElem?_map, h4]; rfl, by rw [List.getElem?_map, h4]; rfl, h5⟩
  · rintro ⟨hne, outs, ms', rfl, rfl, h1, h2, h3⟩
    have h4 : callAll step emptyTuple ms args = .ok (outs.zip ms') := by
      rw [callAll_iff]
      refine ⟨by simp [h1, h2], ?_⟩
      intro i o hi
      obtain ⟨w, o2, h4, h5, h6⟩ := h3 i o hi
      exact ⟨(w, o2), by rw [List.getElem?_zip_eq_some]; exact ⟨h4, h5⟩, h6⟩
    rw [h4]
    have h5 : (outs.zip ms').map (·.1) = outs := by
      rw [List.map_fst_zip]; omega
    have h6 : (outs.zip ms').map (·.2) = ms' := by
      rw [List.map_snd_zip]; omega
    rcases h7 : outs.zip ms' with _ | ⟨r, rs⟩
    · have : (outs.zip ms').length = 0 := by rw [h7]; rfl
      simp [h1, h2] at this
      exact absurd this hne
    · simp only
      rw [← h7, h5, h6]

/-- C23: an empty tuple cannot be called. -/
theorem tuple_call_empty (args : List (PyVal V)) :
    callAndUpdate step emptyTuple (.tup []) args = .error emptyTuple := rfl

/-- Finding: calling an empty list on `x` returns the tuple `(x,)`, not `x`. -/
theorem empty_list_returns_tuple (args : List (PyVal V)) :
    callAndUpdate step emptyTuple (.lst []) args = .ok (.tup args, .lst []) := rfl

/-! ### init and spec -/

theorem mapAll_eq_map {V W : Type} (f : V → W) (l : List (PyVal V)) : mapAll f l = l.map (PyVal.map f) := by
  induction l with
  | nil => rfl
  | cons x xs ih => simp [mapAll, ih]

mutual
theorem map_comp {V W U : Type} (g : W → U) (f : V → W) : (v : PyVal V) → (v.map f).map g = v.map (fun x => g (f x))
  | .arr v => rfl
  | .tup l => by simp only [PyVal.map, mapAll_comp g f l]
  | .lst l => by simp only [PyVal.map, mapAll_comp g f l]
theorem mapAll_comp {V W U : Type} (g : W → U) (f : V → W) :
    (l : List (PyVal V)) → mapAll g (mapAll f l) = mapAll (fun x => g (f x)) l
  | [] => rfl
  | x :: xs => by simp only [mapAll, map_comp g f x, mapAll_comp g f xs]
end

mutual
theorem map_id' {V : Type} (f : V → V) (hf : ∀ v, f v = v) : (v : PyVal V) → v.map f = v
  | .arr v => by simp [PyVal.map, hf]
  | .tup l => by simp only [PyVal.map, mapAll_id' f hf l]
  | .lst l => by simp only [PyVal.map, mapAll_id' f hf l]
theorem mapAll_id' {V : Type} (f : V → V) (hf : ∀ v, f v = v) : (l : List (PyVal V)) → mapAll f l = l
  | [] => rfl
  | x :: xs => by simp only [mapAll, map_id' f hf x, mapAll_id' f hf xs]
end

theorem specArgs_map {V W : Type} (f : V → W) (v : PyVal V) : specArgs (v.map f) = mapAll f (specArgs v) := by
  cases v <;> simp [PyVal.map, specArgs, mapAll]

theorem initChain_spec (E : Env V S K τ σ ε) (hones : ∀ s, E.specOf (E.ones s) = s) (name : Option String)
    (key : Option K) (n : Nat) (l : List (Obj τ)) : ∀ (i0 : Nat) (s : PyVal S) (ms : List (Obj σ)),
    initChain E l name key n i0 (s.map E.ones) = .ok ms →
    ms.length = l.length ∧ ∀ (i : Nat) o, l[i]? = some o → ∃ s' m,
      specChain E.leafSpec E.emptyTuple (l.take i) s = .ok s' ∧ ms[i]? = some m ∧
      init E o (elemName name (i0 + i)) (elemKey E key n (i0 + i)) (mapAll E.ones (specArgs s')) = .ok m := by
  induction l with
  | nil => intro i0 s ms h; simp only [initChain, Except.ok.injEq] at h; subst h; simp
  | cons o l ih =>
    intro i0 s ms h
    simp only [initChain] at h
    rcases h1 : init E o (elemName name i0) (elemKey E key n i0) (specArgs (s.map E.ones)) with e | m <;>
      rw [h1] at h
    · simp at h
    simp only [specArgs_map, mapAll_comp, mapAll_id' _ hones] at h
    rcases h2 : spec E.leafSpec E.emptyTuple o (specArgs s) with e | s2 <;> rw [h2] at h
    · simp at h
    simp only at h
    rcases h3 : initChain E l name key n (i0 + 1) (s2.map E.ones) with e | ms2 <;> rw [h3] at h
    · simp at h
    simp only [Except.ok.injEq] at h
    subst h
    obtain ⟨h4, h5⟩ := ih _ _ _ h3
    refine ⟨by simp [h4], ?_⟩
    intro i o2 hi
    cases i with
    | zero =>
      simp only [List.getElem?_cons_zero, Option.some.injEq] at hi
      subst hi
      exact ⟨s, m, rfl, rfl, by rw [← specArgs_map]; exact h1⟩
    | succ i =>
      obtain ⟨s', m', h6, h7, h8⟩ := h5 i o2 (by simpa using hi)
      refine ⟨s', m', ?_, by simpa using h7, ?_⟩
      · simp only [List.take_succ_cons, specChain, h2]; exact h6
      · rw [show i0 + (i + 1) = i0 + 1 + i by omega]; exact h8

/-- C23: `init` of a list initialises component `i` under the name `name_i`, with the `i`-th key, on arrays of
ones whose shapes are given by the specs of the components before it. -/
theorem list_init_spec (E : Env V S K τ σ ε) (hones : ∀ s, E.specOf (E.ones s) = s) (l : List (Obj τ))
    (name : Option String) (key : Option K) (args : List (PyVal V)) (m : Obj σ)
    (h : init E (.lst l) name key args = .ok m) :
    ∃ ms, m = .lst ms ∧ ms.length = l.length ∧ ∀ (i : Nat) o, l[i]? = some o → ∃ s' m',
      spec E.leafSpec E.emptyTuple (.lst (l.take i)) (mapAll E.specOf args) = .ok s' ∧ ms[i]? = some m' ∧
      init E o (name.map (fun n => n ++ "_" ++ toString i)) (key.bind (fun k => (E.split k l.length)[i]?))
        (mapAll E.ones (specArgs s')) = .ok m' := by
  simp only [init] at h
  have e1 : (PyVal.tup (mapAll (fun v => E.ones (E.specOf v)) args)) =
      (PyVal.tup (mapAll E.specOf args)).map E.ones := by simp [PyVal.map, mapAll_comp]
  rw [e1] at h
  rcases h1 : initChain E l name key l.length 0 ((PyVal.tup (mapAll E.specOf args)).map E.ones) with e | ms <;>
    rw [h1] at h <;> simp [Except.map] at h
  obtain ⟨h2, h3⟩ := initChain_spec E hones name key l.length l 0 _ _ h1
  refine ⟨ms, h.symm, h2, ?_⟩
  intro i o hi
  obtain ⟨s', m', h4, h5, h6⟩ := h3 i o hi
  exact ⟨s', m', by simpa only [spec] using h4, h5, by simpa [elemName, elemKey] using h6⟩

theorem initAll_spec (E : Env V S K τ σ ε) (name : Option String)
    (key : Option K) (n : Nat) (args : List (PyVal V)) (l : List (Obj τ)) : ∀ (i0 : Nat) (ms : List (Obj σ)),
    initAll E l name key n i0 args = .ok ms →
    ms.length = l.length ∧ ∀ (i : Nat) o, l[i]? = some o → ∃ m, ms[i]? = some m ∧
      init E o (elemName name (i0 + i)) (elemKey E key n (i0 + i)) args = .ok m := by
  induction l with
  | nil => intro i0 ms h; simp only [initAll, Except.ok.injEq] at h; subst h; simp
  | cons o l ih =>
    intro i0 ms h
    simp only [initAll] at h
    rcases h1 : init E o (elemName name i0) (elemKey E key n i0) args with e | m <;> rw [h1] at h
    · simp at h
    simp only at h
    rcases h3 : initAll E l name key n (i0 + 1) args with e | ms2 <;> rw [h3] at h
    · simp at h
    simp only [Except.ok.injEq] at h
    subst h
    obtain ⟨h4, h5⟩ := ih _ _ h3
    refine ⟨by simp [h4], ?_⟩
    intro i o2 hi
    cases i with
    | zero =>
      simp only [List.getElem?_cons_zero, Option.some.injEq] at hi
      subst hi
      exact ⟨m, rfl, h1⟩
    | succ i =>
      obtain ⟨m', h7, h8⟩ := h5 i o2 (by simpa using hi)
      exact ⟨m', by simpa using h7, by rw [show i0 + (i + 1) = i0 + 1 + i by omega]; exact h8⟩

/-- C23: `init` of a tuple initialises every component on the same arguments with its own name and key; an
empty tuple is rejected. -/
theorem tuple_init_spec (E : Env V S K τ σ ε) (l : List (Obj τ)) (name : Option String) (key : Option K)
    (args : List (PyVal V)) (m : Obj σ) (h : init E (.tup l) name key args = .ok m) :
    l ≠ [] ∧ ∃ ms, m = .tup ms ∧ ms.length = l.length ∧ ∀ (i : Nat) o, l[i]? = some o → ∃ m',
      ms[i]? = some m' ∧ init E o (name.map (fun n => n ++ "_" ++ toString i))
        (key.bind (fun k => (E.split k l.length)[i]?)) args = .ok m' := by
  simp only [init] at h
  split at h
  · simp at h
  · rename_i hne
    rcases h1 : initAll E l name key l.length 0 args with e | ms <;> rw [h1] at h <;> simp [Except.map] at h
    obtain ⟨h2, h3⟩ := initAll_spec E name key l.length args l 0 ms h1
    refine ⟨by simpa using hne, ms, h.symm, h2, fun i o hi => ?_⟩
    simpa [elemName, elemKey] using h3 i o hi

/-! ### Specs agree with calls -/

mutual
/-- `m` is an initialised version of the template `o` (`R` relates the leaves). -/
def Related (R : τ → σ → Prop) : Obj τ → Obj σ → Prop
  | .leaf t, .leaf s => R t s
  | .tup l, .tup ms => RelatedAll R l ms
  | .lst l, .lst ms => RelatedAll R l ms
  | _, _ => False
def RelatedAll (R : τ → σ → Prop) : List (Obj τ) → List (Obj σ) → Prop
  | [], [] => True
  | o :: os, m :: ms => Related R o m ∧ RelatedAll R os ms
  | _, _ => False
end

/-- The value is not a Python list. -/
def notLst {V : Type} : PyVal V → Prop
  | .lst _ => False
  | _ => True

theorem asArgs_eq_specArgs {V : Type} {v : PyVal V} (h : notLst v) : asArgs v = specArgs v := by
  cases v <;> simp [asArgs, specArgs, notLst] at *

section
variable (leafSpec : τ → List (PyVal S) → Except ε (PyVal S)) (specOf : V → S) (R : τ → σ → Prop)
  (hleaf : ∀ t s args out s', R t s → step s args = .ok (out, s') →
    leafSpec t (mapAll specOf args) = .ok (out.map specOf) ∧ R t s' ∧ notLst out)
include hleaf

mutual
/-- C23: if the specs of the leaves are right and no leaf returns a Python list, the spec of any nesting of
lists and tuples is the spec of the output of calling it; the updated object is still an initialised version
of the template. -/
theorem spec_sound (o : Obj τ) (m : Obj σ) (args : List (PyVal V)) (out : PyVal V) (m' : Obj σ)
    (hr : Related R o m) (h : callAndUpdate step emptyTuple m args = .ok (out, m')) :
    spec leafSpec emptyTuple o (mapAll specOf args) = .ok (out.map specOf) ∧ Related R o m' ∧ notLst out := by
  match o, m with
  | .leaf t, .leaf s =>
    simp only [callAndUpdate] at h
    rcases h1 : step s args with e | ⟨w, s'⟩ <;> rw [h1] at h <;> simp [Except.map] at h
    obtain ⟨rfl, rfl⟩ := h
    simpa only [spec, Related] using hleaf t s args w s' hr h1
  | .tup l, .tup ms =>
    simp only [callAndUpdate] at h
    rcases h1 : callAll step emptyTuple ms args with e | rs <;> rw [h1] at h
    · simp at h
    obtain ⟨h2, h3⟩ := specAll_sound l ms args rs hr h1
    obtain _ | ⟨r, rs⟩ := rs
    · simp at h
    simp only [Except.ok.injEq, Prod.mk.injEq] at h
    obtain ⟨rfl, rfl⟩ := h
    simp only [spec, h2, List.map_cons, PyVal.map, mapAll]
    refine ⟨?_, h3, trivial⟩
    simp [mapAll_eq_map]
  | .lst l, .lst ms =>
    simp only [callAndUpdate] at h
    rcases h1 : callChain step emptyTuple ms (.tup args) with e | ⟨w, ms'⟩ <;> rw [h1] at h <;>
      simp [Except.map] at h
    obtain ⟨rfl, rfl⟩ := h
    obtain ⟨h2, h3⟩ := specChain_sound l ms (.tup args) w ms' hr trivial h1
    exact ⟨by simpa only [spec, PyVal.map] using h2, h3⟩
  | .leaf _, .tup _ | .leaf _, .lst _ | .tup _, .leaf _ | .tup _, .lst _ | .lst _, .leaf _
  | .lst _, .tup _ => simp [Related] at hr
theorem specAll_sound (l : List (Obj τ)) (ms : List (Obj σ)) (args : List (PyVal V))
    (rs : List (PyVal V × Obj σ)) (hr : RelatedAll R l ms)
    (h : callAll step emptyTuple ms args = .ok rs) :
    specAll leafSpec emptyTuple l (mapAll specOf args) = .ok (rs.map (fun r => r.1.map specOf)) ∧
      RelatedAll R l (rs.map (·.2)) := by
  match l, ms with
  | [], [] =>
    simp only [callAll, Except.ok.injEq] at h
    subst h
    exact ⟨rfl, trivial⟩
  | o :: l, m :: ms =>
    simp only [callAll] at h
    rcases h1 : callAndUpdate step emptyTuple m args with e | ⟨w, m'⟩ <;> rw [h1] at h
    · simp at h
    simp only at h
    rcases h2 : callAll step emptyTuple ms args with e | rs2 <;> rw [h2] at h
    · simp at h
    simp only [Except.ok.injEq] at h
    subst h
    obtain ⟨h3, h4, -⟩ := spec_sound o m args w m' hr.1 h1
    obtain ⟨h5, h6⟩ := specAll_sound l ms args rs2 hr.2 h2
    simp only [specAll, h3, h5]
    exact ⟨rfl, h4, h6⟩
  | [], _ :: _ | _ :: _, [] => simp [RelatedAll] at hr
theorem specChain_sound (l : List (Obj τ)) (ms : List (Obj σ)) (v out : PyVal V) (ms' : List (Obj σ))
    (hr : RelatedAll R l ms) (hv : notLst v) (h : callChain step emptyTuple ms v = .ok (out, ms')) :
    specChain leafSpec emptyTuple l (v.map specOf) = .ok (out.map specOf) ∧ RelatedAll R l ms' ∧ notLst out := by
  match l, ms with
  | [], [] =>
    simp only [callChain, Except.ok.injEq, Prod.mk.injEq] at h
    obtain ⟨rfl, rfl⟩ := h
    exact ⟨rfl, trivial, hv⟩
  | o :: l, m :: ms =>
    simp only [callChain] at h
    rcases h1 : callAndUpdate step emptyTuple m (asArgs v) with e | ⟨w, m'⟩ <;> rw [h1] at h
    · simp at h
    simp only at h
    rcases h2 : callChain step emptyTuple ms w with e | ⟨w2, ms2⟩ <;> rw [h2] at h
    · simp at h
    simp only [Except.ok.injEq, Prod.mk.injEq] at h
    obtain ⟨rfl, rfl⟩ := h
    obtain ⟨h3, h4, hw⟩ := spec_sound o m _ w m' hr.1 h1
    obtain ⟨h5, h6, h7⟩ := specChain_sound l ms w w2 ms2 hr.2 hw h2
    rw [asArgs_eq_specArgs hv] at h3
    simp only [specChain, specArgs_map, h3, h5]
    exact ⟨trivial, ⟨h4, h6⟩, h7⟩
  | [], _ :: _ | _ :: _, [] => simp [RelatedAll] at hr
end
end

/-- Non-vacuity and finding: a component that returns a Python list `[a, b]` is followed, in a call, by a
component that receives one argument, but its spec spreads the list over two arguments: `spec` (and `init`)
disagree with `call`.  The first component returns the list `[x, x]`, the second one counts its arguments. -/
def dupStep : Bool → List (PyVal Nat) → Except Unit (PyVal Nat × Bool)
  | true, args => .ok (.lst (args ++ args), true)
  | false, args => .ok (.arr args.length, false)
def dupSpec : Bool → List (PyVal Nat) → Except Unit (PyVal Nat)
  | true, args => .ok (.lst (args ++ args))
  | false, args => .ok (.arr args.length)

theorem list_output_witness :
    callAndUpdate dupStep () (.lst [.leaf true, .leaf false]) [.arr 7] =
      .ok (.arr 1, .lst [.leaf true, .leaf false]) ∧
    spec dupSpec () (.lst [.leaf true, .leaf false]) [.arr 7] = .ok (.arr 2) := ⟨rfl, rfl⟩

/-- Non-vacuity of `spec_sound`: components that add their state to the argument and count the calls. -/
def addStep : Nat → List (PyVal Nat) → Except Unit (PyVal Nat × Nat)
  | s, [.arr x] => .ok (.arr (x + s), s + 1)
  | _, _ => .error ()
def addSpec : Unit → List (PyVal Unit) → Except Unit (PyVal Unit)
  | _, [.arr _] => .ok (.arr ())
  | _, _ => .error ()

example : (∀ t s args out s', (fun (_ : Unit) (_ : Nat) => True) t s → addStep s args = .ok (out, s') →
    addSpec t (mapAll (fun _ => ()) args) = .ok (out.map (fun _ => ())) ∧ True ∧ notLst out) ∧
    callAndUpdate addStep () (.lst [.leaf 1, .leaf 10]) [.arr 5] = .ok (.arr 16, .lst [.leaf 2, .leaf 11]) := by
  refine ⟨?_, rfl⟩
  intro t s args out s' _ h
  match args, h with
  | [.arr x], h =>
    simp only [addStep, Except.ok.injEq, Prod.mk.injEq] at h
    obtain ⟨rfl, rfl⟩ := h
    exact ⟨rfl, trivial, trivial⟩
  | [], h => simp [addStep] at h
  | [.tup _], h => simp [addStep] at h
  | [.lst _], h => simp [addStep] at h
  | _ :: _ :: _, h => simp [addStep] at h

end Verif.State.Seq
