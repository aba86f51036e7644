/-
Property theorems C01–C06 and C15 about `reap`/`call_and_reap`.
-/
import Verif.Harvest.LemmasKeys
import Verif.Harvest.Examples

namespace Verif.Harvest

/-! ### Auxiliary -/

theorem callAndReap_ok {V A B : Type} {S : Settings} {f : Prog V A B} {g : Prog V A (B × Dict V)}
    (h : callAndReap S f = .ok g) : ∃ m, metaOf S f [] = .ok m ∧
      g = .seq (.pure (fun a => .ok (a, fun _ => none)))
        (.seq (reapT S f) (.pure (fun r => .ok (r.1, fun k => (r.2 k).map selectFromPred)))) := by
  simp only [callAndReap] at h
  rcases hm : metaOf S f [] with e | m <;> rw [hm] at h <;> simp at h
  exact ⟨m, rfl, h.symm⟩

theorem run_callAndReap {V A B : Type} {S : Settings} {f : Prog V A B} {g : Prog V A (B × Dict V)}
    (h : callAndReap S f = .ok g) (fuel : Nat) (a : A) :
    run fuel g a = (run fuel (reapT S f) (a, fun _ => none)).map
      (fun r => (r.1, fun k => (r.2 k).map selectFromPred)) := by
  obtain ⟨m, -, rfl⟩ := callAndReap_ok h
  simp only [run, except_bind_ok]
  rcases run fuel (reapT S f) (a, fun _ => none) with e | r <;> rfl

/-! ### C01 -/

/-- C01: `call_and_reap` computes the same output (and fails in the same way) as the function. -/
theorem callAndReap_output {V A B : Type} (S : Settings) (f : Prog V A B) (g : Prog V A (B × Dict V))
    (h : callAndReap S f = .ok g) (fuel : Nat) (a : A) :
    (run fuel g a).map (·.1) = run fuel f a := by
  rw [run_callAndReap h, run_eq_trace fuel f, run_eq_trace fuel (reapT S f)]
  have := trace_reapT S fuel f a (fun _ => none)
  rcases h1 : trace fuel (reapT S f) (a, fun _ => none) with e | r <;>
    rcases h2 : trace fuel f a with e' | s <;> rw [h1, h2] at this <;> simp at this
  · simp [this]
  · simp [this.1]

/-- C01: `reap` is the second component of `call_and_reap`, and it fails exactly when `f` fails. -/
theorem reap_fails_iff {V A B : Type} (S : Settings) (f : Prog V A B) (g : Prog V A (Dict V))
    (h : reap S f = .ok g) (fuel : Nat) (a : A) (e : RErr) :
    run fuel g a = .error e ↔ run fuel f a = .error e := by
  simp only [reap] at h
  rcases hc : callAndReap S f with e' | g' <;> rw [hc] at h <;> simp at h
  subst h
  have := callAndReap_output S f g' hc fuel a
  simp only [run]
  rcases h1 : run fuel g' a with e1 | r1 <;> rw [h1] at this <;> rw [← this] <;> simp

/-- The program with every sow replaced by the plain value and every nest, call removed. -/
def erase {V : Type} : {A B : Type} → Prog V A B → Prog V A B
  | _, _, .pure f => .pure f
  | _, _, .seq p q => .seq (erase p) (erase q)
  | _, _, .sow _ _ _ pre _ post => .pure (fun a => .ok (post a (pre a)))
  | _, _, .nest _ pre body post => .inline pre (erase body) post
  | _, _, .inline pre body post => .inline pre (erase body) post
  | _, _, .call _ pre body post => .inline pre (erase body) post
  | _, _, .cond n sel pre br post => .cond n sel pre (fun i => erase (br i)) post
  | _, _, .scan rev pre body post => .scan rev pre (erase body) post
  | _, _, .whileL pre test body post => .whileL pre (erase test) (erase body) post

/-- C01: outside of a harvest transformation `sow` and `nest` are identities. -/
theorem run_erase {V A B : Type} (fuel : Nat) (p : Prog V A B) (a : A) :
    run fuel (erase p) a = run fuel p a := by
  induction p with
  | pure f => rfl
  | seq p q ihp ihq =>
    simp only [erase, run, ihp]
    rcases run fuel p a with e | b
    · rfl
    · simp [ihq]
  | sow => rfl
  | nest _ pre body post ih | inline pre body post ih | call _ pre body post ih =>
    simp only [erase, run, ih]
  | cond k sel pre br post ih => simp only [erase, run, ih]
  | scan rev pre body post ih => simp only [erase, run, ih]
  | whileL pre test body post iht ihb => simp only [erase, run, iht, ihb]

/-! ### C02 -/

/-- C02: the reaped dictionary has an entry exactly for the names declared by the function. -/
theorem reap_keys {V A B : Type} (S : Settings) (f : Prog V A B) (g : Prog V A (B × Dict V))
    (h : callAndReap S f = .ok g) (fuel : Nat) (a : A) (r : B × Dict V) (hr : run fuel g a = .ok r)
    (n : String) : (r.2 n).isSome = (declares S n (sites f)).isSome := by
  rw [run_callAndReap h] at hr
  rcases h1 : run fuel (reapT S f) (a, fun _ => none) with e | s <;> rw [h1] at hr <;> simp at hr
  subst hr
  obtain ⟨m, hm, -⟩ := callAndReap_ok h
  have := reapT_keys S fuel f hm a _ _ .nil h1 n
  rw [metaOf_nil_get hm] at this
  simpa using this

/-- C02 (partial: programs satisfying `Regular`, see there): `call_and_reap` returns the output of `f` and
exactly the dictionary dictated by the log of the execution of `f`. -/
theorem reap_exact_partial {V A B : Type} (S : Settings) (c : String → Bool) (f : Prog V A B)
    (g : Prog V A (B × Dict V)) (hreg : Regular S c f) (h : callAndReap S f = .ok g) (fuel : Nat) (a : A) :
    run fuel g a = (trace fuel f a).map (fun r => (r.1, expected S f r.2)) := by
  rw [run_callAndReap h]
  obtain ⟨m, hm, -⟩ := callAndReap_ok h
  have := reapT_good S fuel f hreg hm (by intro n mode h; simp at h) a (fun _ => none) Matches.nil
  rcases h1 : run fuel (reapT S f) (a, fun _ => none) with e | s <;>
    rcases h2 : trace fuel f a with e' | t <;> rw [h1, h2] at this <;> simp only [ExRel] at this
  · simp [this]
  · obtain ⟨ho, hmat, hg⟩ := this
    simp only [except_map_ok, Except.ok.injEq, Prod.mk.injEq, ho, true_and]
    funext n
    obtain ⟨hg1, -⟩ := hg n
    simp only [expected]
    have e1 : (s.2 n).map selectFromPred = ((s.2 n).map live).map (·.getD .zeros) := by
      cases s.2 n <;> simp [select_eq_live]
    rw [e1, hg1]
    split <;> simp

/-! ### C03 -/

/-- C03: a name whose sows in the current scope all have mode `k`, `k` not a clobber mode, is sown at most
once on every path through an accepted function. -/
theorem strict_at_most_once {V A B : Type} (S : Settings) (n : String) (k : Mode)
    (hk : k.isClobber = false) (f : Prog V A B) (ho : OnlyMode S n k f) (g : Prog V A (B × Dict V))
    (h : callAndReap S f = .ok g) (ss : List Site) (hp : Path f ss) : (occurrences S n ss).length ≤ 1 := by
  obtain ⟨m, hm, -⟩ := callAndReap_ok h
  exact (path_once hk f ho hm ss hp).1

/-- C03: sowing the same strict (or append) name twice is an error. -/
theorem strict_twice_rejected {V A B : Type} (S : Settings) (n : String) (k : Mode)
    (hk : k.isClobber = false) (f : Prog V A B) (ho : OnlyMode S n k f) (ss : List Site) (hp : Path f ss)
    (h2 : 2 ≤ (occurrences S n ss).length) : ∃ e, callAndReap S f = .error e ∧ reap S f = .error e := by
  rcases h : callAndReap S f with e | g
  · exact ⟨e, rfl, by simp [reap, h]⟩
  · have := strict_at_most_once S n k hk f ho g h ss hp
    omega

/-- C03 (any combination of modes, functions without conditionals have only one path): if a strict or append
sow is one of the sows of `n` listed by `sites`, it is the only one. -/
theorem strict_unique_site {V A B : Type} (S : Settings) (n : String) (k : Mode)
    (hk : k.isClobber = false) (f : Prog V A B) (g : Prog V A (B × Dict V))
    (h : callAndReap S f = .ok g) (hmem : k ∈ occurrences S n (sites f)) :
    occurrences S n (sites f) = [k] := by
  obtain ⟨m, hm, -⟩ := callAndReap_ok h
  rcases metaOf_occ f hm n with h | ⟨h, -⟩ | ⟨mode, h, -⟩
  · rw [h] at hmem; simp at hmem
  · have := h k hmem; rw [hk] at this; simp at this
  · rw [h] at hmem ⊢; simp at hmem; rw [hmem]

/-- C03: in every execution, a strict name of an accepted function is sown exactly once, and that value is
the one reaped. -/
theorem strict_reaped {V A B : Type} (S : Settings) (c : String → Bool) (n : String)
    (f : Prog V A B) (ho : OnlyMode S n .strict f) (hreg : Regular S c f) (g : Prog V A (B × Dict V))
    (h : callAndReap S f = .ok g) (fuel : Nat) (a : A) (r : B × Dict V) (hr : run fuel g a = .ok r)
    (hn : (r.2 n).isSome) :
    ∃ log v, trace fuel f a = .ok (r.1, log) ∧ executed S n log = [v] ∧ r.2 n = some v := by
  have hk := reap_keys S f g h fuel a r hr n
  rw [reap_exact_partial S c f g hreg h] at hr
  rcases ht : trace fuel f a with e | t <;> rw [ht] at hr <;> simp at hr
  subst hr
  rw [hn] at hk
  obtain ⟨m, hm, -⟩ := callAndReap_ok h
  have hl := trace_logOk fuel n .strict f ho (hreg.quietTests f) hm a t ht
  have h1 := hl.once rfl hk.symm
  rw [List.length_eq_one_iff] at h1
  obtain ⟨v, hv⟩ := h1
  refine ⟨t.2, v, by simp, hv, ?_⟩
  simp only [expected, ← hk, if_true]
  rw [hl.last (by simp) (by simp), hv]
  rfl

/-! ### C04 -/

/-- C04 (partial: no loop whose body sows `n` runs zero times): a name sown only in mode clobber is reaped
with the value of the last sow executed. -/
theorem clobber_last_partial {V A B : Type} (S : Settings) (c : String → Bool) (n : String)
    (f : Prog V A B) (ho : OnlyMode S n .clobber f) (hreg : Regular S c f) (g : Prog V A (B × Dict V))
    (h : callAndReap S f = .ok g) (fuel : Nat) (a : A) (b : B) (log : Log V)
    (ht : trace fuel f a = .ok (b, log)) (hz : noZeroTrip S n log) :
    ∃ d, run fuel g a = .ok (b, d) ∧ d n = (executed S n log).getLast? := by
  rw [reap_exact_partial S c f g hreg h, ht]
  refine ⟨_, rfl, ?_⟩
  obtain ⟨m, hm, -⟩ := callAndReap_ok h
  have hl := trace_logOk fuel n .clobber f ho (hreg.quietTests f) hm a _ ht
  simp only [expected]
  by_cases hd : (declares S n (sites f)).isSome = true
  · simp only [hd, if_true]
    have h1 := hl.last (by simp) (fun _ => hz)
    simp only at h1
    rw [h1]
    cases hg : (executed S n log).getLast? with
    | some v => rfl
    | none =>
      exfalso
      have := hl.never rfl hd (List.getLast?_eq_none_iff.1 hg)
      rw [h1, hg] at this; simp at this
  · simp only [hd, Bool.false_eq_true, if_false]
    rw [(hl.undeclared (by simpa using hd)).1]; rfl

/-- C04: zeros when no sow was executed. -/
theorem clobber_never {V A B : Type} (S : Settings) (c : String → Bool) (n : String)
    (f : Prog V A B) (ho : OnlyMode S n .clobber f) (hreg : Regular S c f) (g : Prog V A (B × Dict V))
    (h : callAndReap S f = .ok g) (fuel : Nat) (a : A) (b : B) (log : Log V)
    (ht : trace fuel f a = .ok (b, log)) (he : executed S n log = []) (hd : (declares S n (sites f)).isSome) :
    ∃ d, run fuel g a = .ok (b, d) ∧ d n = some .zeros := by
  rw [reap_exact_partial S c f g hreg h, ht]
  refine ⟨_, rfl, ?_⟩
  obtain ⟨m, hm, -⟩ := callAndReap_ok h
  have hl := trace_logOk fuel n .clobber f ho (hreg.quietTests f) hm a _ ht
  simp only [expected, hd, if_true]
  rw [hl.never rfl hd he]; rfl

/-! ### C05 -/

theorem scanM_zip {K X Y : Type} {f : K × X → Except RErr (K × Y)} :
    ∀ (xs : List X) (k : K) r, scanM f k xs = .ok r →
      List.Forall₂ (fun x y => ∃ k k', f (k, x) = .ok (k', y)) xs r.2 := by
  intro xs
  induction xs with
  | nil => intro k r h; simp only [scanM, Except.ok.injEq] at h; subst h; exact .nil
  | cons x xs ih =>
    intro k r h
    simp only [scanM] at h
    rcases h1 : f (k, x) with e | r1 <;> rw [h1] at h
    · simp at h
    simp only [except_bind_ok] at h
    rcases h2 : scanM f r1.1 xs with e | r2 <;> rw [h2] at h
    · simp at h
    simp only [except_bind_ok, except_pure, Except.ok.injEq] at h
    subst h
    exact .cons ⟨k, r1.1, h1⟩ (ih _ r2 h2)

theorem scanDir_zip {K X Y : Type} {f : K × X → Except RErr (K × Y)} (rev : Bool)
    (xs : List X) (k : K) (r : K × List Y) (h : scanDir rev f k xs = .ok r) :
    List.Forall₂ (fun x y => ∃ k k', f (k, x) = .ok (k', y)) xs r.2 := by
  cases rev
  · exact scanM_zip xs k r h
  · simp only [scanDir, if_true] at h
    rcases h1 : scanM f k xs.reverse with e | r1 <;> rw [h1] at h <;> simp at h
    subst h
    have := scanM_zip _ k r1 h1
    have := List.rel_reverse this
    simpa using this

/-- C05: a name sown in mode append in the body of a scan is reaped as the stack of the values sown by the
iterations: entry `i` is the value sown by the iteration that consumed element `i` of `xs`, forward or
reverse. -/
theorem append_stack {V A K X Y C : Type} (S : Settings) (c : String → Bool) (n : String)
    (rev : Bool) (pre : A → K × List X) (body : Prog V (K × X) (K × Y)) (post : A → K → List Y → C)
    (hreg : Regular S c (.scan rev pre body post)) (ho : OnlyMode S n .append body) (hl : LoopFree body)
    (hd : (declares S n (sites body)).isSome)
    (g : Prog V A (C × Dict V)) (h : callAndReap S (.scan rev pre body post) = .ok g) (fuel : Nat) (a : A)
    (r : C × Dict V) (hr : run fuel g a = .ok r) :
    ∃ vs, r.2 n = some (.stack vs) ∧ List.Forall₂ (fun x v => ∃ k k' y log,
      trace fuel body (k, x) = .ok ((k', y), log) ∧ executed S n log = [v]) (pre a).2 vs := by
  rw [reap_exact_partial S c _ g hreg h] at hr
  obtain ⟨m1, hm, -⟩ := callAndReap_ok h
  simp only [metaOf] at hm
  rcases hp : metaOf S body [] with e | m <;> rw [hp] at hm
  · simp at hm
  simp only [trace] at hr
  rcases h1 : scanDir rev (fun kx => (trace fuel body kx).map (fun r => (r.1.1, (r.1.2, r.2))))
      (pre a).1 (pre a).2 with e | u <;> rw [h1] at hr <;> simp at hr
  subst hr
  have hdecl : declares S n (sites body) = some .append := by
    rcases OnlyMode.declares (p := body) ho with h | h
    · rw [h] at hd; simp at hd
    · exact h
  refine ⟨u.2.map (fun y => (collect S n y.2).getD .zeros), ?_, ?_⟩
  · simp [expected, sites, hdecl, collect, Ev.collect, collectIters_eq_map]
  · have hz := scanDir_zip rev _ _ _ h1
    rw [List.forall₂_map_right_iff]
    refine hz.imp ?_
    rintro x y ⟨k, k', hk⟩
    rcases h2 : trace fuel body (k, x) with e | s <;> rw [h2] at hk <;> simp at hk
    obtain ⟨rfl, rfl⟩ := hk
    have := loopFree_once (k := .append) rfl fuel body ho hl hp _ _ h2
    simp only [hd, if_true] at this
    obtain ⟨-, v, hv1, hv2⟩ := this
    exact ⟨k, s.1.1, s.1.2, s.2, h2, by rw [hv2]; exact hv1⟩

/-! ### C06 -/

/-- C06 (partial: `Regular`): a name sown only with `sow_cond` is reaped with the value of the last
execution whose predicate held, and zeros when there was none. -/
theorem sow_cond_last_partial {V A B : Type} (S : Settings) (c : String → Bool) (n : String)
    (f : Prog V A B) (ho : OnlyMode S n .condClobber f) (hreg : Regular S c f) (g : Prog V A (B × Dict V))
    (h : callAndReap S f = .ok g) (fuel : Nat) (a : A) (b : B) (log : Log V)
    (ht : trace fuel f a = .ok (b, log)) (hd : (declares S n (sites f)).isSome) :
    ∃ d, run fuel g a = .ok (b, d) ∧ d n = some ((executed S n log).getLast?.getD .zeros) := by
  rw [reap_exact_partial S c f g hreg h, ht]
  refine ⟨_, rfl, ?_⟩
  obtain ⟨m, hm, -⟩ := callAndReap_ok h
  have hl := trace_logOk fuel n .condClobber f ho (hreg.quietTests f) hm a _ ht
  simp only [expected, hd, if_true]
  have := hl.last (by simp) (by simp)
  simp only at this
  rw [this]

/-! ### C15 -/

/-- Control flow that `reap` must reject, stated on the paths of the bodies.  (Tests of while loops are not
harvested, see the witness `while_test_sow_ignored`.) -/
def IllModed {V : Type} (S : Settings) : {A B : Type} → Prog V A B → Prop
  | _, _, .pure _ => False
  | _, _, .seq p q => IllModed S p ∨ IllModed S q
  | _, _, .sow .. => False
  | _, _, .nest _ _ body _ => IllModed S body
  | _, _, .inline _ body _ => IllModed S body
  | _, _, .call _ _ body _ => IllModed S body
  | _, _, .cond _ _ _ br _ => (∃ i, IllModed S (br i)) ∨
      -- two branches that sow different sets of names
      ∃ i j si sj n, Path (br i) si ∧ Path (br j) sj ∧ (declares S n si).isSome ∧ ¬ (declares S n sj).isSome
  | _, _, .scan _ _ body _ => IllModed S body ∨
      -- a strict name in the body of a scan
      ∃ n ss, OnlyMode S n .strict body ∧ Path body ss ∧ (declares S n ss).isSome
  | _, _, .whileL _ _ body _ => IllModed S body ∨
      -- a name that is not clobbered in the body of a while loop
      ∃ n k ss, k.isClobber = false ∧ OnlyMode S n k body ∧ Path body ss ∧ (declares S n ss).isSome

theorem illModed_metaOf {V A B : Type} (S : Settings) (p : Prog V A B) :
    IllModed S p → ∀ m0 m1, metaOf S p m0 ≠ .ok m1 := by
  induction p with
  | pure f => intro h; exact absurd h id
  | seq p q ihp ihq =>
    intro h m0 m1 hm
    simp only [metaOf] at hm
    rcases hmp : metaOf S p m0 with e | m <;> rw [hmp] at hm
    · simp at hm
    rcases h with h | h
    · exact ihp h _ _ hmp
    · exact ihq h _ _ hm
  | sow => intro h; exact absurd h id
  | nest scope pre body post ih =>
    intro h m0 m1 hm
    simp only [metaOf] at hm
    rcases hmp : metaOf S body [] with e | m <;> rw [hmp] at hm
    · simp at hm
    exact ih h _ _ hmp
  | inline pre body post ih => intro h m0 m1 hm; exact ih h _ _ hm
  | call _ pre body post ih =>
    intro h m0 m1 hm
    simp only [metaOf] at hm
    rcases hmp : metaOf S body [] with e | m <;> rw [hmp] at hm
    · simp at hm
    exact ih h _ _ hmp
  | cond j sel pre br post ih =>
    intro h m0 m1 hm
    simp only [metaOf] at hm
    rcases hp0 : metaOf S (br 0) [] with e | m <;> rw [hp0] at hm
    · simp at hm
    simp only [except_bind_ok] at hm
    rcases hmq : (List.finRange (j + 1)).mapM (fun i => metaOf S (br i) []) with e | ms <;>
      rw [hmq] at hm
    · simp at hm
    simp only [except_bind_ok] at hm
    rcases hc : metaCond m ms with e | u <;> rw [hc] at hm
    · simp at hm
    rcases h with ⟨i, h⟩ | ⟨i, i', si, sj, n, hpi, hpj, hdi, hdj⟩
    · obtain ⟨mi, hmi, hbr⟩ := metaBranch_of_metaOf_cond hmq hc i
      exact ih i h _ _ hmi
    · obtain ⟨mi, hmi, hbi⟩ := metaBranch_of_metaOf_cond hmq hc i
      obtain ⟨mj, hmj, hbj⟩ := metaBranch_of_metaOf_cond hmq hc i'
      have e1 := (metaBranch_ok (metaOf_nil_keys hmi) hbi n).1
      have e2 := (metaBranch_ok (metaOf_nil_keys hmj) hbj n).1
      rw [metaOf_nil_get hmi, ← path_declares _ hmi si hpi n] at e1
      rw [metaOf_nil_get hmj, ← path_declares _ hmj sj hpj n] at e2
      exact hdj (e2.2 (e1.1 hdi))
  | scan rev pre body post ih =>
    intro h m0 m1 hm
    simp only [metaOf] at hm
    rcases hmp : metaOf S body [] with e | m <;> rw [hmp] at hm
    · simp at hm
    simp only [except_bind_ok] at hm
    rcases hms : metaScan m with e | u <;> rw [hms] at hm
    · simp at hm
    rcases h with h | ⟨n, ss, ho, hp, hd⟩
    · exact ih h _ _ hmp
    · have := metaScan_ok hms n
      rw [metaOf_nil_get hmp] at this
      rw [path_declares body hmp ss hp n] at hd
      rcases OnlyMode.declares (p := body) ho with h | h
      · rw [h] at hd; simp at hd
      · exact this h
  | whileL pre test body post iht ihb =>
    intro h m0 m1 hm
    simp only [metaOf] at hm
    rcases hmp : metaOf S body [] with e | m <;> rw [hmp] at hm
    · simp at hm
    simp only [except_bind_ok] at hm
    rcases hms : metaWhile m with e | u <;> rw [hms] at hm
    · simp at hm
    rcases h with h | ⟨n, k, ss, hk, ho, hp, hd⟩
    · exact ihb h _ _ hmp
    · have := metaWhile_ok hms n
      rw [metaOf_nil_get hmp] at this
      rw [path_declares body hmp ss hp n] at hd
      rcases OnlyMode.declares (p := body) ho with h | h
      · rw [h] at hd; simp at hd
      · have := this k h; rw [hk] at this; simp at this

/-- C15: `reap` and `call_and_reap` raise on ill-moded control flow, before anything is computed. -/
theorem illModed_rejected {V A B : Type} (S : Settings) (f : Prog V A B) (h : IllModed S f) :
    ∃ e, callAndReap S f = .error e ∧ reap S f = .error e := by
  rcases hc : callAndReap S f with e | g
  · exact ⟨e, rfl, by simp [reap, hc]⟩
  · obtain ⟨m, hm, -⟩ := callAndReap_ok hc
    exact absurd hm (illModed_metaOf S f h _ _)

theorem illModed_plantCheck {V A B : Type} (S : Settings) (p : Prog V A B) :
    IllModed S p → ∀ P st st', plantCheck S p P st ≠ .ok st' := by
  induction p with
  | pure f => intro h; exact absurd h id
  | seq p q ihp ihq =>
    intro h P st st' hm
    simp only [plantCheck] at hm
    rcases hmp : plantCheck S p P st with e | m <;> rw [hmp] at hm
    · simp at hm
    rcases h with h | h
    · exact ihp h _ _ _ hmp
    · exact ihq h _ _ _ hm
  | sow => intro h; exact absurd h id
  | nest scope pre body post ih =>
    intro h P st st' hm
    simp only [plantCheck] at hm
    rcases hmp : plantCheck S body (subPlants P scope) [] with e | m <;> rw [hmp] at hm
    · simp at hm
    exact ih h _ _ _ hmp
  | inline pre body post ih => intro h P st st' hm; exact ih h _ _ _ hm
  | call kind pre body post ih =>
    intro h P st st' hm
    cases kind <;> simp only [plantCheck] at hm
    case customJvp => exact ih h _ _ _ hm
    all_goals
      rcases hmp : plantCheck S body P [] with e | m <;> rw [hmp] at hm
      · simp at hm
      exact ih h _ _ _ hmp
  | cond j sel pre br post ih =>
    intro h P st st' hm
    have hill := illModed_metaOf S _ h []
    simp only [plantCheck] at hm
    rcases hp0 : metaOf S (br 0) [] with e | m <;> rw [hp0] at hm
    · simp at hm
    simp only [except_bind_ok] at hm
    rcases hmq : (List.finRange (j + 1)).mapM (fun i => metaOf S (br i) []) with e | ms <;>
      rw [hmq] at hm
    · simp at hm
    simp only [except_bind_ok] at hm
    rcases hc : metaCond m ms with e | u <;> rw [hc] at hm
    · simp at hm
    rcases h with ⟨i, h⟩ | ⟨i, i', si, sj, n, hpi, hpj, hdi, hdj⟩
    · obtain ⟨mi, hmi, hbr⟩ := metaBranch_of_metaOf_cond hmq hc i
      exact illModed_metaOf S _ h _ _ hmi
    · obtain ⟨mi, hmi, hbi⟩ := metaBranch_of_metaOf_cond hmq hc i
      obtain ⟨mj, hmj, hbj⟩ := metaBranch_of_metaOf_cond hmq hc i'
      have e1 := (metaBranch_ok (metaOf_nil_keys hmi) hbi n).1
      have e2 := (metaBranch_ok (metaOf_nil_keys hmj) hbj n).1
      rw [metaOf_nil_get hmi, ← path_declares _ hmi si hpi n] at e1
      rw [metaOf_nil_get hmj, ← path_declares _ hmj sj hpj n] at e2
      exact hdj (e2.2 (e1.1 hdi))
  | scan rev pre body post ih =>
    intro h P st st' hm
    simp only [plantCheck] at hm
    rcases hmp : metaOf S body [] with e | m <;> rw [hmp] at hm
    · simp at hm
    simp only [except_bind_ok] at hm
    rcases h with h | ⟨n, ss, ho, hp, hd⟩
    · exact illModed_metaOf S _ h _ _ hmp
    · rw [path_declares body hmp ss hp n] at hd
      rcases OnlyMode.declares (p := body) ho with h | h
      · rw [h] at hd; simp at hd
      · rw [← metaOf_nil_get hmp] at h
        have hmem := Meta.mem_of_get h
        split at hm
        · simp at hm
        · rename_i hf
          rw [List.find?_eq_none] at hf
          exact hf _ hmem (by simp)
  | whileL pre test body post iht ihb =>
    intro h P st st' hm
    simp only [plantCheck] at hm
    rcases hmp : metaOf S body [] with e | m <;> rw [hmp] at hm
    · simp at hm
    simp only [except_bind_ok] at hm
    rcases hms : metaWhile m with e | u <;> rw [hms] at hm
    · simp at hm
    rcases h with h | ⟨n, k, ss, hk, ho, hp, hd⟩
    · exact illModed_metaOf S _ h _ _ hmp
    · have := metaWhile_ok hms n
      rw [metaOf_nil_get hmp] at this
      rw [path_declares body hmp ss hp n] at hd
      rcases OnlyMode.declares (p := body) ho with h | h
      · rw [h] at hd; simp at hd
      · have := this k h; rw [hk] at this; simp at this

/-- C15: so do `plant` and `harvest`. -/
theorem illModed_plant_rejected {V A B : Type} (S : Settings) (f : Prog V A B) (h : IllModed S f)
    (P : Dict V) : ∃ e, plant S f P = .error e ∧ harvest S f P = .error e := by
  rcases hc : plantCheck S f P [] with e | st
  · exact ⟨e, by simp [plant, hc], by simp [harvest, plant, hc]⟩
  · exact absurd hc (illModed_plantCheck S f h _ _ _)

end Verif.Harvest
