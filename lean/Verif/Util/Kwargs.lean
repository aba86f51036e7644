/-!
# C45: filtering keyword arguments

`/repo/oryx/core/kwargs_util.py`.
-/

namespace Verif.Util

/-- Specification: the kinds of parameters of a Python function (`inspect.Parameter.kind`) other than
`*args` and `**kwargs`. -/
inductive Kind where
  | positionalOnly
  | positionalOrKeyword
  | keywordOnly
  deriving DecidableEq

/-- A parameter (Python signatures, read at kwargs_util.py:29). -/
structure Param where
  name : String
  kind : Kind
  hasDefault : Bool

/-- A Python signature: positional parameters first, then keyword-only ones (read at kwargs_util.py:29). -/
structure Sig where
  positional : List Param
  kwonly : List Param
  varkw : Bool

/-- What Python guarantees about a signature: the kinds are in place, names are distinct, and after a
positional parameter with a default all positional parameters have one.
(Python, not part of oryx; kwargs_util.py:29). -/
structure Sig.Valid (s : Sig) : Prop where
  positional : ∀ p ∈ s.positional, p.kind ≠ .keywordOnly
  kwonly : ∀ p ∈ s.kwonly, p.kind = .keywordOnly
  nodup : ((s.positional ++ s.kwonly).map Param.name).Nodup
  defaults : ∃ pre post, s.positional = pre ++ post ∧ (∀ p ∈ pre, p.hasDefault = false) ∧
    ∀ p ∈ post, p.hasDefault = true

/-- `inspect.FullArgSpec`. -/
structure ArgSpec where
  args : List String
  varkw : Bool
  /-- the number of defaults, `none` for `None` -/
  defaults : Option Nat
  kwonlyargs : List String

/-- `inspect.getfullargspec` (Python), called at `kwargs_util.py:26-31`. `custom_jvp` and `custom_vjp`
objects are unwrapped first (`kwargs_util.py:34-38`). -/
def getfullargspec (s : Sig) : ArgSpec where
  args := s.positional.map Param.name
  varkw := s.varkw
  defaults :=
    let n := (s.positional.filter Param.hasDefault).length
    if n = 0 then none else some n
  kwonlyargs := s.kwonly.map Param.name

/-- `l[-n:]` (Python): everything if `n` is 0 (kwargs_util.py:63, 81). -/
def lastN (l : List α) (n : Nat) : List α := if n = 0 then l else l.drop (l.length - n)

/-- `filter_kwargs`, `kwargs_util.py:41-68`. A dictionary is its list of items. -/
def filterKwargs {V : Type} (s : Sig) (kwargs : List (String × V)) : List (String × V) :=
  let spec := getfullargspec s
  if spec.varkw then kwargs
  else match spec.defaults with
    | none => []
    | some n => kwargs.filter fun kv => decide (kv.1 ∈ lastN spec.args n)

/-- `check_in_kwargs`, `kwargs_util.py:71-82`. -/
def checkInKwargs (s : Sig) (key : String) : Bool :=
  let spec := getfullargspec s
  if spec.varkw then true
  else if spec.defaults.isNone && spec.kwonlyargs.isEmpty then false
  else
    let kws := match spec.defaults with
      | some n => lastN spec.args n
      | none => []
    decide (key ∈ kws) || decide (key ∈ spec.kwonlyargs)

theorem filter_defaults_length {pre post : List Param} (h1 : ∀ p ∈ pre, p.hasDefault = false)
    (h2 : ∀ p ∈ post, p.hasDefault = true) : ((pre ++ post).filter Param.hasDefault) = post := by
  rw [List.filter_append, List.filter_eq_nil_iff.2, List.filter_eq_self.2, List.nil_append]
  · exact h2
  · intro p hp; simp [h1 p hp]

/-- The names taken from the end of `args` are those of the positional parameters with a default. -/
theorem mem_lastN (s : Sig) (h : s.Valid) (n : Nat) (hn : (getfullargspec s).defaults = some n)
    (k : String) : k ∈ lastN (getfullargspec s).args n ↔
      ∃ p ∈ s.positional, p.name = k ∧ p.hasDefault = true := by
  obtain ⟨pre, post, hp, h1, h2⟩ := h.defaults
  have hl : n = post.length := by
    simp only [getfullargspec] at hn
    rw [hp, filter_defaults_length h1 h2] at hn
    split at hn
    · cases hn
    · injection hn with hn; exact hn.symm
  have hne : n ≠ 0 := by
    intro h0
    simp only [getfullargspec] at hn
    rw [hp, filter_defaults_length h1 h2] at hn
    split at hn
    · cases hn
    · injection hn with hn; omega
  simp only [lastN, getfullargspec]
  rw [if_neg hne, hp, List.map_append]
  have e : (pre.map Param.name ++ post.map Param.name).length - n = (pre.map Param.name).length := by
    simp [hl]
  rw [e, List.drop_left]
  simp only [List.mem_map, List.mem_append]
  constructor
  · rintro ⟨p, hm, rfl⟩; exact ⟨p, .inr hm, rfl, h2 p hm⟩
  · rintro ⟨p, hm | hm, rfl, hd⟩
    · rw [h1 p hm] at hd; cases hd
    · exact ⟨p, hm, rfl⟩

theorem defaults_none (s : Sig) (hn : (getfullargspec s).defaults = none) :
    ∀ p ∈ s.positional, p.hasDefault = false := by
  intro p hp
  simp only [getfullargspec] at hn
  split at hn
  · rename_i h0
    have := List.length_eq_zero_iff.1 h0
    have := List.filter_eq_nil_iff.1 this p hp
    simpa using this
  · cases hn

/-- **C45.** `filter_kwargs` keeps an item exactly when it was there and the function has `**kwargs` or
a positional parameter of that name with a default. It keeps the order and invents nothing. -/
theorem C45_filter_kwargs_partial {V : Type} (s : Sig) (h : s.Valid) (kwargs : List (String × V)) :
    (filterKwargs s kwargs).Sublist kwargs ∧
    ∀ kv, kv ∈ filterKwargs s kwargs ↔ kv ∈ kwargs ∧
      (s.varkw = true ∨ ∃ p ∈ s.positional, p.name = kv.1 ∧ p.hasDefault = true) := by
  unfold filterKwargs
  simp only
  cases hv : s.varkw with
  | true =>
    have : (getfullargspec s).varkw = true := hv
    rw [if_pos this]
    exact ⟨List.Sublist.refl _, fun kv => by simp⟩
  | false =>
    have : (getfullargspec s).varkw ≠ true := by simp [getfullargspec, hv]
    rw [if_neg this]
    rcases hd : (getfullargspec s).defaults with _ | n
    · refine ⟨List.nil_sublist _, fun kv => ?_⟩
      have := defaults_none s hd
      constructor
      · intro h; cases h
      · rintro ⟨_, h | ⟨p, hp, _, h⟩⟩
        · cases h
        · rw [this p hp] at h; cases h
    · refine ⟨List.filter_sublist, fun kv => ?_⟩
      simp only [List.mem_filter, decide_eq_true_eq, mem_lastN s h n hd, Bool.false_eq_true, false_or]

/-- **C45.** `check_in_kwargs` answers whether the function has `**kwargs`, a keyword-only parameter
of that name, or a positional one with a default. -/
theorem C45_check_in_kwargs (s : Sig) (h : s.Valid) (k : String) :
    checkInKwargs s k = true ↔ s.varkw = true ∨ (∃ p ∈ s.kwonly, p.name = k) ∨
      ∃ p ∈ s.positional, p.name = k ∧ p.hasDefault = true := by
  unfold checkInKwargs
  simp only
  cases hv : s.varkw with
  | true =>
    have : (getfullargspec s).varkw = true := hv
    rw [if_pos this]; simp
  | false =>
    have : (getfullargspec s).varkw ≠ true := by simp [getfullargspec, hv]
    rw [if_neg this]
    have hk : k ∈ (getfullargspec s).kwonlyargs ↔ ∃ p ∈ s.kwonly, p.name = k := by
      simp [getfullargspec, List.mem_map]
    rcases hd : (getfullargspec s).defaults with _ | n
    · have h0 := defaults_none s hd
      have hpos : ¬ ∃ p ∈ s.positional, p.name = k ∧ p.hasDefault = true := by
        rintro ⟨p, hp, _, h⟩; rw [h0 p hp] at h; cases h
      simp only [Option.isNone_none, Bool.true_and]
      split
      · rename_i he
        have : s.kwonly = [] := by
          have := List.isEmpty_iff.1 he
          simpa [getfullargspec] using this
        constructor
        · intro h; cases h
        · rintro (h | ⟨p, hp, _⟩ | h)
          · cases h
          · rw [this] at hp; cases hp
          · exact (hpos h).elim
      · simp only [Bool.or_eq_true, decide_eq_true_eq, hk]
        constructor
        · rintro (h | h)
          · cases h
          · exact .inr (.inl h)
        · rintro (h | h | h)
          · cases h
          · exact .inr h
          · exact (hpos h).elim
    · simp only [Option.isNone_some, Bool.false_and, Bool.false_eq_true, if_false, Bool.or_eq_true,
        decide_eq_true_eq, hk, mem_lastN s h n hd, false_or]
      exact Or.comm

/-- Specification: calling the function with these keywords does not raise `unexpected keyword
argument` (or `positional-only arguments passed as keyword`). -/
def Accepts (s : Sig) (k : String) : Prop :=
  s.varkw = true ∨ ∃ p ∈ s.positional ++ s.kwonly, p.name = k ∧ p.kind ≠ .positionalOnly

/-- **C45, safety.** If no positional-only parameter has a default, the function accepts every keyword
that `filter_kwargs` leaves. -/
theorem C45_filtered_accepted {V : Type} (s : Sig) (h : s.Valid)
    (hp : ∀ p ∈ s.positional, p.hasDefault = true → p.kind ≠ .positionalOnly)
    (kwargs : List (String × V)) : ∀ kv ∈ filterKwargs s kwargs, Accepts s kv.1 := by
  intro kv hkv
  rcases ((C45_filter_kwargs_partial s h kwargs).2 kv).1 hkv |>.2 with hv | ⟨p, hm, hn, hd⟩
  · exact .inl hv
  · exact .inr ⟨p, List.mem_append_left _ hm, hn, hp p hm hd⟩

/-- `def f(x, *, training=False)`. -/
def kwonlySig : Sig :=
  ⟨[⟨"x", .positionalOrKeyword, false⟩], [⟨"training", .keywordOnly, true⟩], false⟩

/-- **C45 fails for keyword-only parameters**: a keyword that the function accepts with a default is
dropped, although `check_in_kwargs` reports it. -/
theorem C45_kwonly_counterexample {V : Type} (v : V) : kwonlySig.Valid ∧
    Accepts kwonlySig "training" ∧ checkInKwargs kwonlySig "training" = true ∧
    filterKwargs kwonlySig [("training", v)] = [] := by
  refine ⟨⟨?_, ?_, ?_, ⟨_, [], (List.append_nil _).symm, ?_, ?_⟩⟩, .inr ⟨⟨"training", .keywordOnly, true⟩, ?_, rfl, ?_⟩,
    by decide, rfl⟩ <;> simp [kwonlySig]

/-- `def f(x=0, /)`. -/
def posonlySig : Sig := ⟨[⟨"x", .positionalOnly, true⟩], [], false⟩

/-- **C45 fails for positional-only parameters**: a keyword that the function rejects is kept. -/
theorem C45_posonly_counterexample {V : Type} (v : V) : posonlySig.Valid ∧
    ¬ Accepts posonlySig "x" ∧ filterKwargs posonlySig [("x", v)] = [("x", v)] := by
  refine ⟨⟨?_, ?_, ?_, ⟨[], _, rfl, ?_, ?_⟩⟩, ?_, ?_⟩
  any_goals simp [posonlySig, Accepts]
  simp [filterKwargs, getfullargspec, lastN]

/-- The hypotheses can be met: `def f(x, training=True, rng=None)`. -/
example : filterKwargs (V := Nat) ⟨[⟨"x", .positionalOrKeyword, false⟩,
    ⟨"training", .positionalOrKeyword, true⟩, ⟨"rng", .positionalOrKeyword, true⟩], [], false⟩
    [("rng", 1), ("foo", 2), ("training", 3)] = [("rng", 1), ("training", 3)] := by decide

end Verif.Util
