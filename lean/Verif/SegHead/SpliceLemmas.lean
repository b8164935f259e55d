import Verif.SegHead.Splice
import Verif.SegHead.KeepProps
import Verif.Doc.ResegProps

/-!
# Splicing whole documents: lemmas for C59
-/
namespace Verif.SegHead

open Verif.Doc (Node Att Kind Lab Comp Win Env SErr TErr Reach bind_ok Item Leaf Visible items leaves leavesL isSpan plain plainL contentOf
  SegBody Fit shaped shapedL)
open Verif.Style (Head PLab RInfo RegionDef PErr Name Sheet Specified Computed Refers refStyles ownRegion setRegion present presentL presentRegions
  presentRegion resolve)

/-! ### A head within a larger one -/

/-- Everything that the head `A` defines, `B` defines in the same way. -/
structure Within (A : Head) (iA : List RInfo) (B : Head) (iB : List RInfo) : Prop where
  find : ∀ s, (Style.find A.sheet s).isSome → Style.find B.sheet s = Style.find A.sheet s
  own : ∀ s, (Style.find A.sheet s).isSome → B.own s = A.own s
  geo : B.geo = A.geo
  infos : ∀ r i, iA.find? (fun i => decide (i.id = r)) = some i → iB.find? (fun i => decide (i.id = r)) = some i

theorem refs_within {A B : Head} (hf : ∀ s, (Style.find A.sheet s).isSome → Style.find B.sheet s = Style.find A.sheet s)
    {refs l : List Name} (h : refStyles A refs = .ok l) : refStyles B refs = .ok l := by
  obtain ⟨h1, h2, h3⟩ := refStyles_closed h
  have hp : Part A.sheet B.sheet id (fun s => s ∈ l) :=
    ⟨fun _ _ h => h, fun s hs => by simp [hf s (h3 s hs)], h2⟩
  have := hp.collect h1 (refStyles_ok.mp h)
  simp only [List.map_id] at this
  exact refStyles_ok.mpr this

theorem resolve_within {own own' : Name → Specified} {l : List Name} (h : ∀ n ∈ l, own' n = own n) : resolve own' l = resolve own l := by
  unfold resolve
  generalize ({} : Specified) = s0
  induction l generalizing s0 with
  | nil => rfl
  | cons a l ih =>
    rw [List.foldl_cons, List.foldl_cons, h a List.mem_cons_self]
    exact ih (fun n hn => h n (List.mem_cons_of_mem _ hn)) _

theorem region_within {A B : Head} (hf : ∀ s, (Style.find A.sheet s).isSome → Style.find B.sheet s = Style.find A.sheet s)
    (ho : ∀ s, (Style.find A.sheet s).isSome → B.own s = A.own s) (hg : B.geo = A.geo) {r : RegionDef} {i : RInfo}
    (h : presentRegion A r = .ok i) : presentRegion B r = .ok i := by
  unfold presentRegion at h ⊢
  obtain ⟨l, h1, h⟩ := bind_ok h
  rw [refs_within hf h1]
  cases h
  simp only [bind, Except.bind, pure, Except.pure]
  rw [resolve_within (fun n hn => ho n ((refStyles_closed h1).2.2 n hn)), hg]

theorem regions_within {A B : Head} (hf : ∀ s, (Style.find A.sheet s).isSome → Style.find B.sheet s = Style.find A.sheet s)
    (ho : ∀ s, (Style.find A.sheet s).isSome → B.own s = A.own s) (hg : B.geo = A.geo) : ∀ {rs : List RegionDef} {is : List RInfo},
    presentRegions A rs = .ok is → presentRegions B rs = .ok is
  | [], _, h => h
  | r :: rs, is, h => by
    rw [presentRegions] at h ⊢
    obtain ⟨i, h1, h⟩ := bind_ok h
    obtain ⟨js, h2, h⟩ := bind_ok h
    rw [region_within hf ho hg h1]
    simp only [bind, Except.bind]
    rw [regions_within hf ho hg h2]
    exact h

theorem presentRegions_append {A : Head} : ∀ {r1 r2 : List RegionDef} {i1 i2 : List RInfo},
    presentRegions A r1 = .ok i1 → presentRegions A r2 = .ok i2 → presentRegions A (r1 ++ r2) = .ok (i1 ++ i2)
  | [], r2, i1, i2, h1, h2 => by rw [presentRegions] at h1; cases h1; exact h2
  | r :: rs, r2, i1, i2, h1, h2 => by
    rw [presentRegions] at h1
    obtain ⟨i, h3, h1⟩ := bind_ok h1
    obtain ⟨js, h4, h1⟩ := bind_ok h1
    cases h1
    rw [List.cons_append, presentRegions, h3]
    simp only [bind, Except.bind]
    rw [presentRegions_append h4 h2]
    rfl

/-! ### Presentation within a larger head -/

/-- What of a validated element matters for how its content looks. -/
structure Face where
  att : Att
  region : Option RInfo
  comp : Computed

def Face.kind (q : Face) : Kind := q.att.kind

/-- The face of an element. -/
def faceOf (x : PLab) : Face := ⟨{ x.att with id := none }, x.region, x.comp⟩

theorem setRegion_within {A B : Head} {iA iB : List RInfo} (hw : Within A iA B iB) {a a' : Att} (hk : a'.kind = a.kind)
    (hr : a'.region = a.region) {c rg : Option RInfo} (h : setRegion iA a c = .ok rg) : setRegion iB a' c = .ok rg := by
  unfold setRegion at h ⊢
  rw [hk, hr]
  cases ho : (if Doc.hasRegion a.kind then a.region else none) with
  | none => rw [ho] at h; exact h
  | some r =>
    rw [ho] at h
    simp only at h ⊢
    cases hf : iA.find? (fun i => decide (i.id = r)) with
    | none => rw [hf] at h; cases h
    | some i =>
      rw [hf] at h
      rw [hw.infos r i hf]
      exact h

mutual
theorem present_within {A B : Head} {iA iB : List RInfo} (hw : Within A iA B iB) : ∀ {n n' : Node Att} {c c' : Style.Ctx}
    {par : Option Computed} {r : Style.Ctx × Node PLab}, present A iA c par n = .ok r → plain n' = plain n → c'.region = c.region →
    ∃ r', present B iB c' par n' = .ok r' ∧ r'.1.region = r.1.region ∧ mapN faceOf r'.2 = mapN faceOf r.2
  | .text s, n', c, c', par, r, h, hp, hc => by
    cases n' with
    | text t => simp only [plain, Node.text.injEq] at hp; subst hp; rw [present] at h; cases h; exact ⟨_, rfl, hc, rfl⟩
    | br => simp [plain] at hp
    | elem a ks => simp [plain] at hp
  | .br, n', c, c', par, r, h, hp, hc => by
    cases n' with
    | text t => simp [plain] at hp
    | br => rw [present] at h; cases h; exact ⟨_, rfl, hc, rfl⟩
    | elem a ks => simp [plain] at hp
  | .elem a kids, n', c, c', par, r, h, hp, hc => by
    cases n' with
    | text t => simp [plain] at hp
    | br => simp [plain] at hp
    | elem b ks =>
      simp only [plain, Node.elem.injEq] at hp
      obtain ⟨hab, hks⟩ := hp
      have hk : b.kind = a.kind := by injection hab
      have hr : b.region = a.region := by injection hab
      have hst : b.style = a.style := by injection hab
      obtain ⟨rg, refd, q, h1, h2, h3, rfl⟩ := Style.present_elem h
      have hcomp : (Style.label B b c'.stack rg par refd).comp = (Style.label A a c.stack rg par refd).comp := by
        simp only [Style.label, hw.geo, hk]
        rw [resolve_within (fun n hn => hw.own n ((refStyles_closed h2).2.2 n hn))]
      obtain ⟨q', g1, g2, g3⟩ := presentL_within hw (c' := ⟨c'.stack ++ [refd], rg⟩) h3 hks rfl
      refine ⟨(Style.leave b q'.1, .elem (Style.label B b c'.stack rg par refd) q'.2), ?_, ?_, ?_⟩
      · rw [present, hc, setRegion_within hw hk hr h1, hst, refs_within hw.find h2]
        simp only [bind, Except.bind]
        rw [hcomp, g1]
        rfl
      · rw [Style.leave_region, Style.leave_region, g2, ownRegion, ownRegion, hk, hr]
      · rw [mapN, mapN, g3]
        congr 1
        unfold faceOf
        rw [hcomp]
        simp only [Style.label, hab]
theorem presentL_within {A B : Head} {iA iB : List RInfo} (hw : Within A iA B iB) : ∀ {ns ns' : List (Node Att)} {c c' : Style.Ctx}
    {par : Option Computed} {r : Style.Ctx × List (Node PLab)}, presentL A iA c par ns = .ok r → plainL ns' = plainL ns →
    c'.region = c.region →
    ∃ r', presentL B iB c' par ns' = .ok r' ∧ r'.1.region = r.1.region ∧ mapNL faceOf r'.2 = mapNL faceOf r.2
  | [], ns', c, c', par, r, h, hp, hc => by
    cases ns' with
    | nil => rw [presentL] at h; cases h; exact ⟨_, rfl, hc, rfl⟩
    | cons k ks => simp [plainL] at hp
  | k :: ks, ns', c, c', par, r, h, hp, hc => by
    cases ns' with
    | nil => simp [plainL] at hp
    | cons k' ks' =>
      simp only [plainL, List.cons.injEq] at hp
      obtain ⟨q, qs, h1, h2, rfl⟩ := Style.presentL_cons h
      obtain ⟨q', g1, g2, g3⟩ := present_within hw h1 hp.1 hc
      obtain ⟨qs', f1, f2, f3⟩ := presentL_within hw h2 hp.2 g2
      refine ⟨(qs'.1, q'.2 :: qs'.2), ?_, f2, ?_⟩
      · rw [presentL, g1]
        simp only [bind, Except.bind]
        rw [f1]
        rfl
      · rw [mapNL, mapNL, g3, f3]
end

mutual
/-- Where no region is in force before, none is after. -/
theorem present_noRegion {A : Head} {iA : List RInfo} : ∀ {n : Node Att} {c : Style.Ctx} {par : Option Computed}
    {r : Style.Ctx × Node PLab}, present A iA c par n = .ok r → c.region = none → r.1.region = none
  | .text s, c, par, r, h, hc => by rw [present] at h; cases h; exact hc
  | .br, c, par, r, h, hc => by rw [present] at h; cases h; exact hc
  | .elem a kids, c, par, r, h, hc => by
    obtain ⟨rg, refd, q, h1, h2, h3, rfl⟩ := Style.present_elem h
    rw [Style.leave_region]
    split
    · rfl
    · rename_i ho
      refine presentL_noRegion h3 ?_
      have := (Style.setRegion_ok h1).1 (by
        cases hx : ownRegion a with
        | none => rfl
        | some r => rw [hx] at ho; simp at ho)
      rw [this, hc]
theorem presentL_noRegion {A : Head} {iA : List RInfo} : ∀ {ns : List (Node Att)} {c : Style.Ctx} {par : Option Computed}
    {r : Style.Ctx × List (Node PLab)}, presentL A iA c par ns = .ok r → c.region = none → r.1.region = none
  | [], c, par, r, h, hc => by rw [presentL] at h; cases h; exact hc
  | k :: ks, c, par, r, h, hc => by
    obtain ⟨q, qs, h1, h2, rfl⟩ := Style.presentL_cons h
    have := presentL_noRegion h2 (present_noRegion h1 hc)
    exact this
end

theorem presentL_append {A : Head} {iA : List RInfo} {par : Option Computed} : ∀ {k1 k2 : List (Node Att)} {c : Style.Ctx}
    {r1 r2 : Style.Ctx × List (Node PLab)}, presentL A iA c par k1 = .ok r1 → presentL A iA r1.1 par k2 = .ok r2 →
    presentL A iA c par (k1 ++ k2) = .ok (r2.1, r1.2 ++ r2.2)
  | [], k2, c, r1, r2, h1, h2 => by rw [presentL] at h1; cases h1; exact h2
  | k :: ks, k2, c, r1, r2, h1, h2 => by
    obtain ⟨q, qs, h3, h4, rfl⟩ := Style.presentL_cons h1
    rw [List.cons_append, presentL, h3]
    simp only [bind, Except.bind]
    rw [presentL_append h4 h2]
    rfl

theorem plainL_eq (ks : List (Node Att)) : plainL ks = ks.map plain := by
  induction ks with
  | nil => rfl
  | cons k ks ih => rw [plainL, ih]; rfl

/-- A document's content: its head, regions, content and the faces that validation gives. -/
structure Content where
  head : Head
  infos : List RInfo
  kids : List (Node Att)
  faces : List (Node Face)

/-- The presentation of several contents one after the other. -/
theorem present_contents {B : Head} {iB : List RInfo} {par : Option Computed} : ∀ (cs : List Content) (ks : List (Node Att)) (c : Style.Ctx),
    (∀ x ∈ cs, Within x.head x.infos B iB ∧ ∃ c0 r, c0.region = none ∧ presentL x.head x.infos c0 par x.kids = .ok r ∧ mapNL faceOf r.2 = x.faces) →
    plainL ks = (cs.map (fun x => plainL x.kids)).flatten → c.region = none →
    ∃ r, presentL B iB c par ks = .ok r ∧ r.1.region = none ∧ mapNL faceOf r.2 = (cs.map (·.faces)).flatten
  | [], ks, c, _, hp, hc => by
    cases ks with
    | nil => exact ⟨_, rfl, hc, rfl⟩
    | cons k ks => simp [plainL] at hp
  | x :: cs, ks, c, h, hp, hc => by
    obtain ⟨hw, c0, r0, hc0, h0, hf0⟩ := h x List.mem_cons_self
    rw [List.map_cons, List.flatten_cons, plainL_eq, List.map_eq_append_iff] at hp
    obtain ⟨k1, k2, rfl, hp1, hp2⟩ := hp
    rw [← plainL_eq] at hp1 hp2
    obtain ⟨r1, g1, g2, g3⟩ := presentL_within hw (c' := c) h0 hp1 (by rw [hc, hc0])
    have hn := presentL_noRegion g1 hc
    obtain ⟨r2, f1, f2, f3⟩ := present_contents cs k2 r1.1 (fun y hy => h y (List.mem_cons_of_mem _ hy)) hp2 hn
    refine ⟨_, presentL_append g1 f1, f2, ?_⟩
    rw [mapNL_append, g3, f3, hf0, List.map_cons, List.flatten_cons]

/-! ### What is shown, by faces -/

/-- What content with these faces shows at an instant. -/
def piecesIn (ks : List (Node Face)) (t : Int) : List Piece :=
  ((leavesL Face.kind ks).filter (fun l => (Doc.compOf 0 0 none l.1.att []).at t)).map (fun l => ⟨l.2, l.1.comp, l.1.region.map (·.id)⟩)

theorem leavesL_face_append (a b : List (Node Face)) : leavesL Face.kind (a ++ b) = leavesL Face.kind a ++ leavesL Face.kind b := by
  induction a with
  | nil => rfl
  | cons k ks ih => simp [leavesL, ih]

theorem piecesIn_append (a b : List (Node Face)) (t : Int) : piecesIn (a ++ b) t = piecesIn a t ++ piecesIn b t := by
  simp [piecesIn, leavesL_face_append]

theorem piecesIn_flatten (t : Int) : ∀ l : List (List (Node Face)), piecesIn l.flatten t = (l.map (fun k => piecesIn k t)).flatten
  | [] => rfl
  | a :: l => by rw [List.flatten_cons, piecesIn_append, piecesIn_flatten t l]; rfl

mutual
theorem mapN_congr {α β : Type} {f g : α → β} : ∀ {n : Node α}, (∀ x ∈ labelsOf n, f x = g x) → mapN f n = mapN g n
  | .text s, _ => rfl
  | .br, _ => rfl
  | .elem x kids, h => by
    rw [mapN, mapN, h x (by simp [labelsOf]), mapNL_congr (fun y hy => h y (by simp [labelsOf, hy]))]
theorem mapNL_congr {α β : Type} {f g : α → β} : ∀ {ks : List (Node α)}, (∀ x ∈ labelsOfL ks, f x = g x) → mapNL f ks = mapNL g ks
  | [], _ => rfl
  | k :: ks, h => by
    rw [mapNL, mapNL, mapN_congr (fun y hy => h y (by simp [labelsOfL, hy])), mapNL_congr (fun y hy => h y (by simp [labelsOfL, hy]))]
end

/-- What a segment-like document shows, by the faces of its content. -/
theorem pieces_faces {d : HDoc} {infos : List RInfo} {x : Full} {ks : List (Node Full)} (h : d.validate = .ok (infos, .elem x ks))
    (hb : SegBody d.body) (ha : d.avail = 0) (t : Int) :
    piecesAt (.elem x ks) t = piecesIn (mapNL (fun x => faceOf x.pres) ks) t := by
  obtain ⟨_, _, hlab, _, hatt⟩ := validate_ok h
  have hfacts := (valid_facts h).1
  rw [ha] at hlab
  obtain ⟨a, hba, hk, hcase⟩ := hb.elem
  have hf := hb.fit
  simp only [Fit, Bool.and_eq_true] at hf
  have hxk : x.kind = .body := by
    rw [mapN, hba] at hatt
    injection hatt with h1 h2
    show x.att.kind = .body
    rw [h1]; exact hk
  have hlt : Doc.leavesOf (Doc.times 0 0 none d.body) = (Doc.leavesAtt d.body).map (fun l => (⟨l.1, Doc.compOf 0 0 none l.1 []⟩, l.2)) := by
    generalize contentOf d.body = cs at *
    rw [hba]
    rcases hcase with rfl | hcase
    · simp [Doc.times, Doc.timesL, Doc.leavesOf, Doc.leavesAtt, leaves, leavesL, Leaf, hk]
    · exact Doc.times_leaves (.elem a cs) (by simp [shaped, hk, hf.1.1, hf.1.2]) (by simp [Doc.tidy, hk, Doc.hasContent, hcase, hf.2, Leaf])
  rw [← hlab, ← hatt, leavesOf_mapN] at hlt
  have hla : Doc.leavesAtt (mapN Full.att (.elem x ks)) = (leaves Full.kind (.elem x ks)).map (fun l => (l.1.att, l.2)) :=
    leaves_mapN Full.att Att.kind _
  rw [hla, List.map_map] at hlt
  have hcomp : ∀ l ∈ leaves Full.kind (.elem x ks), l.1.comp = Doc.compOf 0 0 none l.1.att [] := by
    intro l hl
    have := List.map_inj_left.mp hlt l hl
    simp only [Function.comp, Prod.mk.injEq] at this
    exact congrArg Lab.comp this.1
  have hleaf : Leaf Full.kind x ks = false := by simp [Leaf, hxk]
  have hlk : leaves Full.kind (.elem x ks) = leavesL Full.kind ks := by rw [leaves, hleaf]; rfl
  have hface : mapNL (fun x => faceOf x.pres) ks = mapNL (fun x : Full => (⟨{ x.att with id := none }, x.pres.region, x.pres.comp⟩ : Face)) ks := by
    apply mapNL_congr
    intro y hy
    have := (hfacts y (by simp [labelsOf, hy])).1
    simp only [faceOf, this]
  have hlf : leavesL Face.kind (mapNL (fun x => faceOf x.pres) ks) =
      (leavesL Full.kind ks).map (fun l => ((⟨{ l.1.att with id := none }, l.1.pres.region, l.1.pres.comp⟩ : Face), l.2)) := by
    rw [hface]
    exact leavesL_mapN _ Face.kind ks
  unfold piecesAt piecesIn
  rw [hlf, hlk, List.filter_map, List.map_map]
  rw [hlk] at hcomp
  have : (leavesL Full.kind ks).filter (fun l => l.1.comp.at t) =
      (leavesL Full.kind ks).filter ((fun l : Face × List Item => (Doc.compOf 0 0 none l.1.att []).at t) ∘
        fun l => ((⟨{ l.1.att with id := none }, l.1.pres.region, l.1.pres.comp⟩ : Face), l.2)) := by
    apply List.filter_congr
    intro l hl
    simp only [Function.comp]
    rw [Doc.compOf_id, hcomp l hl]
  rw [this]
  rfl

/-! ### The merged document -/

/-- A segment as it comes from the extraction with prefixed identifiers. -/
structure IsSeg (n : Nat) (d : HDoc) : Prop where
  styling : d.styling = false → d.head.sheet = []
  layout : d.layout = false → d.head.regions = []
  body : SegBody d.body
  plainBody : ∀ a kids, d.body = .elem a kids → a.style = []
  avail : d.avail = 0
  pre : d.sdoc.Prefixed n
  nodup : d.sdoc.ids.Nodup

theorem sdoc_styles {d : HDoc} (h : d.styling = false → d.head.sheet = []) : d.sdoc.styles.getD [] = d.head.sheet.map (·.1) := by
  unfold HDoc.sdoc
  cases hs : d.styling with
  | true => rfl
  | false => rw [h hs]; rfl

theorem sdoc_regions {d : HDoc} (h : d.layout = false → d.head.regions = []) : d.sdoc.regions.getD [] = d.head.regions.map (·.id) := by
  unfold HDoc.sdoc
  cases hs : d.layout with
  | true => rfl
  | false => rw [h hs]; rfl

theorem copyDefs_ids : ∀ (rs : List RegionDef) (ids : List Name),
    (copyDefs ids rs).map (·.id) = (Doc.renameRegions ids (rs.map (·.id))).2
  | [], ids => rfl
  | r :: rs, ids => by
    rw [copyDefs, List.map_cons, Doc.renameRegions]
    split
    · rw [List.map_cons, copyDefs_ids rs]
    · rw [List.map_cons, copyDefs_ids rs]

/-- Merging, seen by identifiers. -/
theorem mergeH_sdoc {S : List Name} {a d : HDoc} (h1 : a.styling = false → a.head.sheet = []) (h2 : a.layout = false → a.head.regions = []) :
    (mergeH (S, a) d).1 = (Doc.mergeDoc (S, a.sdoc) d.sdoc).1 ∧
      (d.styling = false → d.head.sheet = []) → (d.layout = false → d.head.regions = []) →
      (mergeH (S, a) d).2.sdoc = (Doc.mergeDoc (S, a.sdoc) d.sdoc).2 := by
  rintro ⟨-, h3⟩ h4
  unfold mergeH Doc.mergeDoc
  simp only [HDoc.sdoc]
  congr 1
  · cases hs : a.styling with
    | false =>
      simp only [Bool.false_or, h1 hs, List.nil_append, Doc.mergeStyling, Bool.false_eq_true, if_false]
      congr 2
      rw [List.map_map]
      apply List.map_congr_left
      intro e _
      simp [styleName, hs]
    | true =>
      simp only [Bool.true_or, if_true, Doc.mergeStyling]
      congr 1
      rw [List.map_append, List.map_map]
      congr 1
      cases hd : d.styling with
      | false => simp [h3 hd]
      | true =>
        simp only [if_true, Option.getD_some, List.map_map]
        apply List.map_congr_left
        intro e _
        simp only [Function.comp_apply, styleName]
        split <;> split <;> simp_all
  · cases hs : a.layout with
    | false => simp [h2 hs, Doc.mergeLayout]
    | true =>
      simp only [Bool.true_or, if_true, Doc.mergeLayout]
      congr 1
      rw [List.map_append, copyDefs_ids]
      congr 1
      cases hd : d.layout with
      | false => simp [h4 hd]
      | true => rfl

theorem copyDefs_same {ids : List Name} : ∀ {rs : List RegionDef}, (∀ r ∈ rs, r.id ∉ ids) → copyDefs ids rs = rs
  | [], _ => rfl
  | r :: rs, h => by
    rw [copyDefs, if_neg (by simpa using h r List.mem_cons_self), copyDefs_same (fun q hq => h q (List.mem_cons_of_mem _ hq))]

/-- What holds between the rounds of the splicer. -/
structure Merged (segs : List HDoc) (acc : HDoc) : Prop where
  sheet : acc.head.sheet = (segs.map (·.head.sheet)).flatten
  regions : acc.head.regions = (segs.map (·.head.regions)).flatten
  own : ∀ s ∈ segs, ∀ x ∈ s.head.sheet.map (·.1), acc.head.own x = s.head.own x
  geo : ∀ s ∈ segs, acc.head.geo = s.head.geo
  content : plainL (contentOf acc.body) = (segs.map (fun s => plainL (contentOf s.body))).flatten
  styling : acc.styling = false → acc.head.sheet = []
  layout : acc.layout = false → acc.head.regions = []
  body : SegBody acc.body
  plainBody : ∀ a kids, acc.body = .elem a kids → a.style = []
  avail : acc.avail = 0

theorem Merged.one {n : Nat} {d : HDoc} (h : IsSeg n d) : Merged [d] d where
  sheet := by simp
  regions := by simp
  own := by simp
  geo := by simp
  content := by simp
  styling := h.styling
  layout := h.layout
  body := h.body
  plainBody := h.plainBody
  avail := h.avail

theorem Merged.step {segs : List HDoc} {acc d : HDoc} {ns : List Nat} {S : List Name} {n : Nat} (h : Merged segs acc)
    (hs : Doc.Spliced ns S acc.sdoc) (hn : n ∉ ns) (hd : IsSeg n d) (hg : d.head.geo = acc.head.geo) :
    Merged (segs ++ [d]) (mergeH (S, acc) d).2 ∧ Doc.Spliced (n :: ns) (mergeH (S, acc) d).1 (mergeH (S, acc) d).2.sdoc := by
  have hsd := mergeH_sdoc (S := S) (a := acc) (d := d) h.styling h.layout ⟨rfl, hd.styling⟩ hd.layout
  have hsp := (hs.step hn hd.pre hd.nodup).1
  have hsep : ∀ x ∈ d.sdoc.ids, ¬ Doc.Owned ns x := by
    intro x hx ho
    obtain ⟨y, hy⟩ := hd.pre x hx
    exact ho.ne hn hy
  have hids1 : ∀ x ∈ acc.head.sheet.map (·.1), Doc.Owned ns x := fun x hx =>
    hs.own x (by simp only [Doc.SDoc.ids, sdoc_styles h.styling, List.mem_append]; exact .inl (.inl hx))
  have hids2 : ∀ x ∈ acc.head.regions.map (·.id), Doc.Owned ns x := fun x hx =>
    hs.own x (by simp only [Doc.SDoc.ids, sdoc_regions h.layout, List.mem_append]; exact .inl (.inr hx))
  have hd1 : ∀ x ∈ d.head.sheet.map (·.1), x ∈ d.sdoc.ids := fun x hx => by
    simp only [Doc.SDoc.ids, sdoc_styles hd.styling, List.mem_append]; exact .inl (.inl hx)
  have hd2 : ∀ x ∈ d.head.regions.map (·.id), x ∈ d.sdoc.ids := fun x hx => by
    simp only [Doc.SDoc.ids, sdoc_regions hd.layout, List.mem_append]; exact .inl (.inr hx)
  have hname : ∀ x ∈ d.head.sheet.map (·.1), styleName S acc x = x := by
    intro x hx
    unfold styleName
    rw [if_neg]
    simp only [Bool.and_eq_true, List.contains_iff_mem, List.mem_append, not_and]
    rintro _ (hm | hm)
    · exact hsep x (hd1 x hx) (hids1 x hm)
    · exact hsep x (hd1 x hx) (hs.seen x hm)
  have hsheet : d.head.sheet.map (fun e => (styleName S acc e.1, e.2)) = d.head.sheet := by
    conv => rhs; rw [← List.map_id d.head.sheet]
    apply List.map_congr_left
    intro e he
    rw [hname e.1 (List.mem_map_of_mem he)]
    rfl
  have hst := Doc.mergeStyling_same (ids := S) (a := acc.sdoc.styles) (b := d.sdoc.styles) (by
    intro x hx
    rw [sdoc_styles hd.styling] at hx
    rw [sdoc_styles h.styling]
    exact ⟨fun hm => hsep x (hd1 x hx) (hids1 x hm), fun hm => hsep x (hd1 x hx) (hs.seen x hm)⟩)
  have hregs : (if acc.layout then copyDefs (acc.head.regions.map (·.id) ++ (Doc.mergeStyling S acc.sdoc.styles d.sdoc.styles).1) d.head.regions
      else d.head.regions) = d.head.regions := by
    split
    · apply copyDefs_same
      intro r hr hm
      have hr' := hd2 r.id (List.mem_map_of_mem hr)
      rcases List.mem_append.mp hm with hm | hm
      · exact hsep _ hr' (hids2 _ hm)
      · rcases (hst.2 _).mp hm with hm | hm
        · exact hsep _ hr' (hs.seen _ hm)
        · rw [sdoc_styles h.styling] at hm
          exact hsep _ hr' (hids1 _ hm)
    · rfl
  have hbody := Doc.fold_body [d.sdoc] (S, acc.sdoc) h.body (by intro x hx; rw [List.mem_singleton] at hx; rw [hx]; exact hd.body)
  obtain ⟨a0, hb0, hk0, _⟩ := h.body.elem
  refine ⟨⟨?_, ?_, ?_, ?_, ?_, ?_, ?_, ?_, ?_, rfl⟩, ?_⟩
  · simp only [mergeH, hsheet, h.sheet, List.map_append, List.flatten_append]
    simp
  · simp only [mergeH]
    rw [hregs, h.regions]
    simp
  · intro s hsm x hx
    simp only [mergeH, mergedOwn]
    rcases List.mem_append.mp hsm with hsm | hsm
    · have : x ∈ acc.head.sheet.map (·.1) := by
        rw [h.sheet]
        obtain ⟨e, he, rfl⟩ := List.mem_map.mp hx
        exact List.mem_map.mpr ⟨e, List.mem_flatten.mpr ⟨_, List.mem_map_of_mem hsm, he⟩, rfl⟩
      rw [if_pos this]
      exact h.own s hsm x hx
    · rw [List.mem_singleton] at hsm
      rw [hsm] at hx ⊢
      rw [if_neg (fun hm => hsep x (hd1 x hx) (hids1 x hm))]
      have hfe : d.head.sheet.find? (fun e => decide (styleName S acc e.1 = x)) = d.head.sheet.find? (fun e => decide (e.1 = x)) := by
        have : ∀ (l : Sheet), (∀ e ∈ l, styleName S acc e.1 = e.1) →
            l.find? (fun e => decide (styleName S acc e.1 = x)) = l.find? (fun e => decide (e.1 = x)) := by
          intro l hl
          induction l with
          | nil => rfl
          | cons e l ih =>
            rw [List.find?_cons, List.find?_cons, hl e List.mem_cons_self, ih (fun e' he' => hl e' (List.mem_cons_of_mem _ he'))]
        exact this _ (fun e he => hname e.1 (List.mem_map_of_mem he))
      rw [hfe]
      cases hf : d.head.sheet.find? (fun e => decide (e.1 = x)) with
      | none =>
        obtain ⟨e, he, e1⟩ := List.mem_map.mp hx
        have := List.find?_eq_none.mp hf e he
        simp [e1] at this
      | some e =>
        have := List.find?_some hf
        simp only [decide_eq_true_eq] at this
        simp only [this]
  · intro s hsm
    rcases List.mem_append.mp hsm with hsm | hsm
    · exact h.geo s hsm
    · rw [List.mem_singleton] at hsm
      rw [hsm]
      exact hg.symm
  · simp only [mergeH]
    rw [Doc.mergeBody_plain, h.content]
    simp
  · intro hf
    simp only [mergeH, Bool.or_eq_false_iff] at hf
    simp [mergeH, h.styling hf.1, hd.styling hf.2]
  · intro hf
    simp only [mergeH, Bool.or_eq_false_iff] at hf
    simp only [mergeH]
    rw [hregs, h.layout hf.1, hd.layout hf.2]
    rfl
  · exact hbody
  · intro a kids he
    simp only [mergeH, Doc.mergeBody, Node.elem.injEq] at he
    rw [← he.1, hb0]
    exact h.plainBody a0 _ hb0
  · rw [hsd]
    exact hsp

theorem Merged.fold : ∀ (ds : List (Nat × HDoc)) (ns : List Nat) (S : List Name) (segs : List HDoc) (acc : HDoc), Merged segs acc →
    Doc.Spliced ns S acc.sdoc → (∀ p ∈ ds, p.1 ∉ ns) → (ds.map (·.1)).Nodup → (∀ p ∈ ds, IsSeg p.1 p.2) →
    (∀ p ∈ ds, p.2.head.geo = acc.head.geo) →
    Merged (segs ++ ds.map (·.2)) ((ds.map (·.2)).foldl mergeH (S, acc)).2 ∧
      ((ds.map (·.2)).foldl mergeH (S, acc)).2.sdoc.ids.Nodup
  | [], _, _, segs, acc, h, hs, _, _, _, _ => by simpa using ⟨h, hs.nodup⟩
  | p :: ds, ns, S, segs, acc, h, hs, hn, hnd, hp, hg => by
    obtain ⟨h1, h2⟩ := h.step hs (hn p List.mem_cons_self) (hp p List.mem_cons_self) (hg p List.mem_cons_self)
    simp only [List.map_cons, List.nodup_cons] at hnd
    have ih := Merged.fold ds (p.1 :: ns) _ _ _ h1 h2 (by
      intro q hq hm
      rw [List.mem_cons] at hm
      rcases hm with hm | hm
      · exact hnd.1 (hm ▸ List.mem_map_of_mem hq)
      · exact hn q (List.mem_cons_of_mem _ hq) hm) hnd.2 (fun q hq => hp q (List.mem_cons_of_mem _ hq))
      (fun q hq => hg q (List.mem_cons_of_mem _ hq))
    rw [List.map_cons, List.foldl_cons]
    simpa [List.append_assoc] using ih

mutual
theorem idsOf_reg : ∀ {n : Node Att}, (∀ a kids, n = .elem a kids → a.kind ≠ .body) → shaped n = true →
    Doc.idsOf (fun a => if a.kind = .body then none else a.id) n = Doc.idsOf Att.id n
  | .text s, _, _ => rfl
  | .br, _, _ => rfl
  | .elem a kids, h, hs => by
    rw [shaped, Bool.and_eq_true] at hs
    rw [Doc.idsOf, Doc.idsOf, if_neg (h a kids rfl), idsOfL_reg hs.1 hs.2]
theorem idsOfL_reg {kd : Kind} : ∀ {ks : List (Node Att)}, ks.all (Doc.fits kd) = true → shapedL ks = true →
    Doc.idsOfL (fun a => if a.kind = .body then none else a.id) ks = Doc.idsOfL Att.id ks
  | [], _, _ => rfl
  | k :: ks, hf, hs => by
    rw [List.all_cons, Bool.and_eq_true] at hf
    rw [shapedL, Bool.and_eq_true] at hs
    rw [Doc.idsOfL, Doc.idsOfL, idsOfL_reg hf.2 hs.2, idsOf_reg ?_ hs.1]
    rintro a kids rfl hb
    have := hf.1
    cases kd <;> simp [Doc.fits, hb] at this
end

/-- The identifiers that validation registers are those the splicer looks at. -/
theorem ids_sdoc {d : HDoc} (h1 : d.styling = false → d.head.sheet = []) (h2 : d.layout = false → d.head.regions = []) (hb : SegBody d.body) :
    d.ids = d.sdoc.ids := by
  obtain ⟨a, hba, hk, _⟩ := hb.elem
  have hf := hb.fit
  simp only [Fit, Bool.and_eq_true] at hf
  unfold HDoc.ids Doc.SDoc.ids
  rw [sdoc_styles h1, sdoc_regions h2]
  congr 1
  show _ = Doc.idsOfL Att.id (contentOf d.body)
  generalize contentOf d.body = cs at *
  rw [hba, Doc.idsOf, if_pos hk, idsOfL_reg hf.1.1 hf.1.2]
  rfl

end Verif.SegHead
