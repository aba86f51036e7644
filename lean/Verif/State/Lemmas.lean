import Verif.State.Model
import Verif.Harvest.PropsPlant
import Verif.Harvest.PropsTags
import Verif.Ppl.Own

namespace Verif.State

open Verif.Harvest

/-- Planting one tag leaves the sites of another tag. -/
theorem kept_other {V : Type} {S S' : Settings} (ht : S'.tag ≠ S.tag) (hx : S.exclusive = false) :
    ∀ (ss : List Site) (P : Dict V), anySite S' (keptSites S P ss) = anySite S' ss ∧
      ∀ n, declares S' n (keptSites S P ss) = declares S' n ss
  | [], _ => by simp [keptSites]
  | .sow tag name mode :: ss, P => by
    have ih := kept_other ht hx ss P
    simp only [keptSites, Site.kept]
    by_cases htag : tag = S.tag
    · subst htag
      have hna : S'.active S.tag name = false := by simp [Settings.active, Ne.symm ht]
      split
      · split <;> simp [ih.1, ih.2, anySite, Site.any, hna, declares, Site.declares]
      · simp [ih.1, ih.2, anySite, Site.any, hna, declares, Site.declares]
    · have ha : S.active tag name = false := by simp [Settings.active, htag]
      simp [ha, htag, hx, ih.1, ih.2, anySite, declares]
  | .nest scope inner :: ss, P => by
    have ih := kept_other ht hx ss P
    have ih2 := kept_other ht hx inner (inScope P scope)
    simp only [keptSites, Site.kept]
    simp [ih.1, ih.2, anySite, Site.any, ih2.1, declares, Site.declares]

theorem quiet_pureSeq {V A B C : Type} (S : Settings) (g : A → Except RErr B) (p : Prog V B C)
    (h : Quiet S p) : Quiet S (.seq (.pure g) p) := ⟨trivial, h⟩

/-- Planting one tag keeps the regularity for another tag. -/
theorem regular_plantT_other {V A B : Type} {S S' : Settings} (ht : S'.tag ≠ S.tag) (hx : S.exclusive = false)
    (p : Prog V A B) : ∀ {c} (P : Dict V)
    (st st' : List String), plantCheck S p P st = .ok st' → ScopesActive S p → Regular S' c p →
    Regular S' c (plantT S p P) := by
  simp only [ScopesActive]
  induction p with
  | pure f => intros; trivial
  | seq p q ihp ihq =>
    intro c P st st' h hs hr
    obtain ⟨st1, h1, h2⟩ := plantCheck_seq h
    exact ⟨ihp P _ _ h1 hs.1 hr.1, ihq P _ _ h2 hs.2 hr.2⟩
  | sow tag name mode pre pred post =>
    intro c P st st' h hs hr
    simp only [plantT]
    cases hd : S.dispatch tag name with
    | drop => trivial
    | forward => exact hr
    | handle =>
      simp only
      split
      · trivial
      · exact hr
  | nest scope pre body post ih =>
    intro c P st st' h hs hr
    obtain ⟨st2, h2⟩ := plantCheck_nest h
    exact ⟨ih _ _ _ h2 hs.2 hr.1, hr.2⟩
  | inline pre body post ih => intro c P st st' h hs hr; exact ih P _ _ h hs hr
  | call kind pre body post ih =>
    intro c P st st' h hs hr
    obtain ⟨st1, st2, h2⟩ := plantCheck_call h
    exact ih P _ _ h2 hs hr
  | cond j sel pre br post ih =>
    intro c P st st' h hs hr i
    obtain ⟨⟨st2, h2⟩, -⟩ := plantCheck_cond h i
    exact ih i P _ _ h2 (hs i) (hr i)
  | scan rev pre body post ih =>
    intro c P st st' h hs hr
    have hsites := sites_plantT (.scan rev pre body post) _ _ _ h hs
    obtain ⟨m, st2, hm, h2, -⟩ := plantCheck_scan h
    simp only [plantT, sites, List.nil_append, List.append_nil, metaD_of_ok hm] at hsites
    simp only [plantT, Regular, metaD_of_ok hm, sites, List.nil_append, List.append_nil, hsites, true_and,
      and_true]
    refine ⟨ih _ _ _ h2 hs hr.1, ?_⟩
    rcases hr.2 with h | h
    · exact .inl (fun n hn => h n (by rwa [(kept_other ht hx _ _).2] at hn))
    · exact .inr (fun n hn => h n (by rwa [(kept_other ht hx _ _).2] at hn))
  | whileL pre test body post iht ihb =>
    intro c P st st' h hs hr
    obtain ⟨m, st2, hm, h2⟩ := plantCheck_while h
    refine ⟨ihb P _ _ h2 hs.2 hr.1, ?_⟩
    exact ⟨trivial, hr.2⟩

theorem scopes_of_none {V A B : Type} (t : String) (x : Bool) (f : Prog V A B) :
    ScopesActive ⟨t, [], none, x⟩ f := by
  simp only [ScopesActive]
  induction f with
  | pure f => trivial
  | seq p q ihp ihq => exact ⟨ihp, ihq⟩
  | sow => trivial
  | nest s pre body post ih => exact ⟨by simp [Settings.active], ih⟩
  | inline pre body post ih => exact ih
  | call _ pre body post ih => exact ih
  | cond j sel pre br post ih => exact ih
  | scan rev pre body post ih => exact ih
  | whileL pre test body post iht ihb => exact ⟨by simp, ihb⟩

end Verif.State
