/-
C20: `graph_replace`; and examples for all ppl properties.
-/
import Verif.Ppl.PropsBlock

namespace Verif.Ppl

open Verif.Harvest

theorem graphReplace_ok {V B : Type} {f : Prog V (List (Val V)) B} {ins outs : List String}
    {args own : List (Val V)} {h : Prog V (List (Val V)) (List (Val V))}
    (hh : graphReplace f ins outs args = .ok (h, own)) :
    ∃ g t m, conditional f ins args = .ok (g, own) ∧ trace g = .ok t ∧ metaOf rvS g [] = .ok m ∧
      (∀ n ∈ outs, (m.get n).isSome) ∧
      h = .seq (.seq t (.pure (fun r => .ok r.2)))
        (.seq (resowAll ((m.map (·.1)).filter (fun n => !outs.contains n)))
          (.pure (fun d => .ok (outs.map (fun n => (d n).getD .zeros))))) := by
  simp only [graphReplace] at hh
  rcases hc : conditional f ins args with e | ⟨g, own'⟩ <;> rw [hc] at hh
  · simp at hh
  simp only at hh
  rcases hm : metaOf rvS g [] with e | m
  · rw [hm] at hh; simp at hh
  rcases ht : callAndReap rvS g with e | t
  · simp only [hm, reap, ht, except_map_error] at hh; simp at hh
  simp only [hm, reap, ht, except_map_ok] at hh
  rcases hf : outs.find? (fun n => (m.get n).isNone) with _ | n <;> rw [hf] at hh
  · simp only [Except.ok.injEq, Prod.mk.injEq] at hh
    obtain ⟨rfl, rfl⟩ := hh
    refine ⟨g, t, m, rfl, ht, hm, ?_, rfl⟩
    intro n hn
    have := List.find?_eq_none.1 hf n hn
    simpa [Option.isSome_iff_ne_none] using this
  · simp at hh

theorem run_resowAll {V : Type} (fuel : Nat) (ns : List String) (d : Dict V) :
    run fuel (resowAll ns) d = .ok d := by
  induction ns with
  | nil => rfl
  | cons n ns ih => simp only [resowAll, run, except_bind_ok, ih]

/-- C20: the values returned are those of the output variables in the execution of `f` conditioned on the
input variables. -/
theorem graphReplace_output {V B : Type} (f : Prog V (List (Val V)) B) (ins outs : List String)
    (args own : List (Val V)) (h : Prog V (List (Val V)) (List (Val V)))
    (hh : graphReplace f ins outs args = .ok (h, own)) :
    ∃ g t, conditional f ins args = .ok (g, own) ∧ trace g = .ok t ∧ ∀ fuel,
      (∀ e, run fuel h own = .error e ↔ run fuel t own = .error e) ∧
      ∀ r, run fuel t own = .ok r → ∃ vs, run fuel h own = .ok vs ∧
        List.Forall₂ (fun n v => r.2 n = some v) outs vs := by
  obtain ⟨g, t, m, hc, ht, hm, hout, rfl⟩ := graphReplace_ok hh
  refine ⟨g, t, hc, ht, fun fuel => ?_⟩
  simp only [run, run_resowAll]
  rcases hr : run fuel t own with e | r
  · simp
  · simp only [except_bind_ok, Except.ok.injEq, reduceCtorEq, implies_true, true_and, forall_eq']
    refine ⟨_, rfl, ?_⟩
    rw [List.forall₂_map_right_iff]
    rw [List.forall₂_same]
    intro n hn
    have hk := reap_keys rvS g t ht fuel own r hr n
    rw [← metaOf_nil_get hm, hout n hn] at hk
    obtain ⟨v, hv⟩ := Option.isSome_iff_exists.1 hk
    simp [hv]

/-- C20: an output name that is not a latent of the conditioned program raises a KeyError. -/
theorem graphReplace_keyError {V B : Type} (f : Prog V (List (Val V)) B) (ins outs : List String)
    (args own : List (Val V)) (g : Prog V (List (Val V)) B) (hc : conditional f ins args = .ok (g, own))
    (t : Prog V (List (Val V)) (B × Dict V)) (ht : trace g = .ok t) (n : String) (hn : n ∈ outs)
    (hd : declares rvS n (sites g) = none) : ∃ k ∈ outs, graphReplace f ins outs args = .error (.keyError k) := by
  obtain ⟨m, hm, -⟩ := callAndReap_ok ht
  have hr : ∃ r, reap rvS g = .ok r := by
    have : callAndReap rvS g = .ok t := ht
    simp only [reap, this]; exact ⟨_, rfl⟩
  obtain ⟨r, hr⟩ := hr
  simp only [graphReplace, hc, hm, hr]
  rcases hf : outs.find? (fun n => (m.get n).isNone) with _ | k
  · have := List.find?_eq_none.1 hf n hn
    rw [metaOf_nil_get hm, hd] at this; simp at this
  · exact ⟨k, List.mem_of_find?_eq_some hf, rfl⟩

theorem metaOf_resowAll {V : Type} : ∀ (ns : List String) (m : Meta), ns.Nodup → (∀ n ∈ ns, m.get n = none) →
    ∃ m', metaOf rvS (resowAll ns : Prog V (Dict V) (Dict V)) m = .ok m'
  | [], m, _, _ => ⟨m, rfl⟩
  | n :: ns, m, hnd, hm => by
    rw [List.nodup_cons] at hnd
    have hd : rvS.dispatch rvTag n = .handle := by rw [dispatch_handle, rvS_active]; simp
    obtain ⟨m', h'⟩ := metaOf_resowAll (V := V) ns (m.set n .strict) hnd.2 (by
      intro k hk
      rw [Meta.get_set]
      have : k ≠ n := by rintro rfl; exact hnd.1 hk
      simp [this, hm k (by simp [hk])])
    refine ⟨m', ?_⟩
    simp only [resowAll, metaOf, hd, Meta.handle, hm n (by simp), reduceCtorEq, if_false, except_bind_ok]
    exact h'

theorem run_reapT_resowAll {V : Type} (fuel : Nat) : ∀ (ns : List String) (d : Dict V) (R : Reaps V),
    run fuel (reapT rvS (resowAll ns)) (d, R) = .ok (d, fun k => if k ∈ ns then
      some ⟨(d k).getD .zeros, none, .strict⟩ else R k)
  | [], d, R => by simp [resowAll, reapT, run]
  | n :: ns, d, R => by
    have hd : rvS.dispatch rvTag n = .handle := by rw [dispatch_handle, rvS_active]; simp
    simp only [resowAll, reapT, hd, run, except_bind_ok, run_reapT_resowAll fuel ns]
    simp only [Except.ok.injEq, Prod.mk.injEq, true_and]
    funext k
    by_cases h1 : k ∈ ns
    · simp [h1]
    · by_cases h2 : k = n
      · subst h2; simp [h1, Reaps.handle, newReap]
      · simp [h1, h2, Reaps.handle]

/-- C20: the latents of the replaced program are the latents of the conditioned `f` that are not outputs, with
the same values. -/
theorem graphReplace_latents {V B : Type} (f : Prog V (List (Val V)) B) (ins outs : List String)
    (args own : List (Val V)) (h : Prog V (List (Val V)) (List (Val V)))
    (hh : graphReplace f ins outs args = .ok (h, own)) :
    ∃ g t th, conditional f ins args = .ok (g, own) ∧ trace g = .ok t ∧ trace h = .ok th ∧ ∀ fuel r rh,
      run fuel t own = .ok r → run fuel th own = .ok rh →
        ∀ n, rh.2 n = if n ∈ outs then none else r.2 n := by
  obtain ⟨g, t, m, hc, ht, hm, hout, rfl⟩ := graphReplace_ok hh
  have hfor : Foreign rvS t := foreign_callAndReap ht rvS rfl
  have hmt := metaOf_foreign t hfor []
  have hnd : ((m.map (·.1)).filter (fun n => !outs.contains n)).Nodup := (metaOf_nil_keys hm).filter _
  obtain ⟨m', hm'⟩ := metaOf_resowAll (V := V) _ [] hnd (by simp)
  have hacc : ∃ th, trace (Prog.seq (.seq t (.pure (fun r => .ok r.2)))
        (.seq (resowAll ((m.map (·.1)).filter (fun n => !outs.contains n)))
          (.pure (fun d : Dict V => .ok (outs.map (fun n => (d n).getD .zeros)))))) = .ok th := by
    simp only [trace, callAndReap, metaOf, hmt, except_bind_ok, hm']
    exact ⟨_, rfl⟩
  obtain ⟨th, hth⟩ := hacc
  refine ⟨g, t, th, hc, ht, hth, fun fuel r rh hr hrh n => ?_⟩
  rw [run_callAndReap hth] at hrh
  have h1 := trace_reapT rvS fuel t own (fun _ => none)
  have hrun := hr
  rw [run_eq_trace] at hrun
  rcases htr : Harvest.trace fuel t own with e | ⟨o, l⟩ <;> rw [htr] at hrun h1 <;> simp at hrun
  subst hrun
  rcases h2 : Harvest.trace fuel (reapT rvS t) (own, fun _ => none) with e | ⟨⟨o', d⟩, l'⟩ <;>
    rw [h2] at h1 <;> simp at h1
  obtain ⟨rfl, -⟩ := h1
  have h3 : run fuel (reapT rvS t) (own, fun _ => none) = .ok (o', d) := by rw [run_eq_trace, h2]; rfl
  have hd : ∀ k, d k = none := by
    intro k
    have := reapT_keys rvS fuel t hmt own _ _ .nil h3 k
    simpa using this
  simp only [reapT, run, h3, except_bind_ok, except_map_ok, run_reapT_resowAll] at hrh
  simp only [Except.ok.injEq] at hrh
  subst hrh
  simp only [List.mem_filter, hd]
  have hk := reap_keys rvS g t ht fuel own o' hr n
  rw [← metaOf_nil_get hm, Bool.eq_iff_iff, Meta.get_isSome_iff] at hk
  by_cases hmem : n ∈ m.map (·.1)
  · have hsome := hk.2 hmem
    by_cases ho : n ∈ outs
    · simp [ho]
    · obtain ⟨v, hv⟩ := Option.isSome_iff_exists.1 hsome
      simp only [hmem, ho, hv]
      simp [selectFromPred, ho]
  · have : o'.2 n = none := by
      rw [← Option.not_isSome_iff_eq_none]; exact fun h => hmem (hk.1 h)
    simp [hmem, this]

end Verif.Ppl
