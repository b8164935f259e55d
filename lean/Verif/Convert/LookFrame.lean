import Verif.Convert.LookProps

/-! Of what a head sets, validation and conversion use what belongs to the styles it has, and the places of its regions only. -/
namespace Verif.Convert

open Verif.Doc hiding Name
open Verif.Style Verif.Time
open Verif.SegHead (mapN mapNL HDoc Full check checkL liftE)

/-- Heads that differ in what they would set for styles that do not exist only. -/
structure HeadAgree (hd hd' : Head) : Prop where
  sheet : hd'.sheet = hd.sheet
  regions : hd'.regions = hd.regions
  geo : hd'.geo = hd.geo
  own : ∀ p ∈ hd.sheet, hd'.own p.1 = hd.own p.1

variable {hd hd' : Head}

theorem refStyles_known {refs l : List Name} (h : refStyles hd refs = .ok l) : ∀ x ∈ l, ∃ p ∈ hd.sheet, p.1 = x := by
  have hl : (collect hd.sheet [] refs).1 = .ok l := by
    unfold refStyles at h
    split at h
    · rename_i l' he; cases h; exact he
    · cases h
  have hns := (C29_succeeds_iff Reached.init refs).1 ⟨l, hl⟩
  intro x hx
  obtain ⟨r, hr, hre⟩ := ((C29_reachable_exactly_once Reached.init hl).2 x).1 hx
  have hd' := (hns r hr).2
  have : find hd.sheet x ≠ none := fun hn => hd' ⟨x, hre, hn⟩
  have := find_mem (Option.isSome_iff_ne_none.2 this)
  obtain ⟨p, hp, e⟩ := List.mem_map.1 this
  exact ⟨p, hp, e⟩

theorem resolve_congr {own own' : Name → Specified} {l : List Name} (h : ∀ x ∈ l, own' x = own x) : resolve own' l = resolve own l := by
  unfold resolve
  generalize ({} : Specified) = s
  induction l generalizing s with
  | nil => rfl
  | cons x l ih =>
    rw [List.foldl_cons, List.foldl_cons, h x (by simp)]
    exact ih (fun y hy => h y (by simp [hy])) _

theorem HeadAgree.refStyles (ha : HeadAgree hd hd') (refs : List Name) : Style.refStyles hd' refs = Style.refStyles hd refs := by
  unfold Style.refStyles
  rw [ha.sheet]

theorem HeadAgree.resolved (ha : HeadAgree hd hd') {refs l : List Name} (h : Style.refStyles hd refs = .ok l) : resolve hd'.own l = resolve hd.own l := by
  apply resolve_congr
  intro x hx
  obtain ⟨p, hp, rfl⟩ := refStyles_known h x hx
  exact ha.own p hp

theorem HeadAgree.presentRegions (ha : HeadAgree hd hd') : ∀ rs : List RegionDef, Style.presentRegions hd' rs = Style.presentRegions hd rs
  | [] => rfl
  | r :: rs => by
    rw [Style.presentRegions, Style.presentRegions, ha.presentRegions rs, presentRegion, presentRegion, ha.refStyles, ha.geo]
    cases h : Style.refStyles hd r.refs with
    | error e => rfl
    | ok l =>
      simp only [bind, Except.bind]
      rw [ha.resolved h]

mutual
theorem HeadAgree.check (ha : HeadAgree hd hd') (infos : List RInfo) : ∀ (n : Node Att) (tc : Doc.Ctx) (pc : Style.Ctx) (par : Option Computed),
    SegHead.check hd' infos tc pc par n = SegHead.check hd infos tc pc par n
  | .text _, _, _, _ => rfl
  | .br, _, _, _ => rfl
  | .elem a kids, tc, pc, par => by
    rw [SegHead.check, SegHead.check, ha.refStyles]
    cases h : Style.refStyles hd a.style with
    | error e => rfl
    | ok refd =>
      simp only [liftE, bind, Except.bind]
      cases setRegion infos a pc.region with
      | error e => rfl
      | ok rg =>
        simp only
        have hx : label hd' a pc.stack rg par refd = label hd a pc.stack rg par refd := by
          unfold label
          rw [ha.resolved h, ha.geo]
        rw [hx, ha.checkL infos kids]
theorem HeadAgree.checkL (ha : HeadAgree hd hd') (infos : List RInfo) : ∀ (ks : List (Node Att)) (tc : Doc.Ctx) (pc : Style.Ctx) (par : Option Computed),
    SegHead.checkL hd' infos tc pc par ks = SegHead.checkL hd infos tc pc par ks
  | [], _, _, _ => rfl
  | k :: ks, tc, pc, par => by
    rw [SegHead.checkL, SegHead.checkL, ha.check infos k]
    congr 1
    funext r
    rw [ha.checkL infos ks]
end

theorem HeadAgree.validate (o : HDoc) (ha : HeadAgree o.head hd') : ({ o with head := hd' } : HDoc).validate = o.validate := by
  unfold HDoc.validate
  have hids : ({ o with head := hd' } : HDoc).ids = o.ids := by
    unfold HDoc.ids
    simp only [ha.sheet, ha.regions]
  simp only [hids, ha.regions, ha.presentRegions, ha.check]

theorem HeadAgree.convStyles (ha : HeadAgree hd hd') : convStyles hd' = convStyles hd := by
  unfold Convert.convStyles
  rw [ha.sheet]
  split
  · rfl
  · apply List.map_congr_left
    intro p hp
    rw [ha.own p hp]

theorem convRegions_congr {res : Rat × Rat} {place place' : Name → List Char × List Char} : ∀ {rs : List RegionDef},
    (∀ r ∈ rs, place' r.id = place r.id) → convRegions res place' rs = convRegions res place rs
  | [], _ => rfl
  | r :: rs, h => by
    rw [convRegions, convRegions, convRegions_congr (fun q hq => h q (by simp [hq])), convRegion, convRegion, h r (by simp)]

/-- The encoder does the same with heads that agree and places that agree where there are regions. -/
theorem HeadAgree.encode {o : HDoc} (ha : HeadAgree o.head hd') {place place' : Name → List Char × List Char}
    (hp : ∀ r ∈ o.head.regions, place' r.id = place r.id) (m : Media) (pr : Rat → List Char) (res : Rat × Rat) :
    encodeH m pr res place' { o with head := hd' } = encodeH m pr res place o := by
  unfold encodeH
  rw [ha.validate o]
  cases o.validate with
  | error e => rfl
  | ok r =>
    obtain ⟨_, n⟩ := r
    simp only [convertDoc]
    rw [ha.regions, convRegions_congr hp, ha.convStyles]

end Verif.Convert
