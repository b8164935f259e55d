import Verif.SegHead.Props

/-!
# Exactly when a segment can be cut out of a document (C55)

`EBUTT3Document.extract_segment` (documents/ebutt3.py:542-561) of a valid document, with nothing assumed about regions inside regions or
about divs that have nothing to show.
-/
namespace Verif.SegHead

open Verif.Doc (Node Att Lab Win Env SErr Reach)
open Verif.Style (Name RInfo ownRegion)

/-! ### Specification -/

/-- What an element refers to by its own attributes. -/
def refersTo (a : Att) : List Name := a.style ++ (ownRegion a).toList

/-- Begins before the window ends, and does not end properly before it begins. -/
def InTime (wb : Option Int) (we : Int) (c : Doc.Comp) : Prop := c.b < we ∧ ∀ b e, wb = some b → c.e = some e → c.b ≤ e → b < e

/-- Validation found the style or region to be used by the body, or by a p or span in the window: among its own styles and those it is
nested in, or as the region it is shown in. -/
def InUse (wb : Option Int) (we : Int) (n : Node Full) (r : Name) : Prop :=
  ∃ z, (z ∈ rootOf n ∨ z ∈ labelsOf n ∧ (z.kind = .p ∨ z.kind = .span) ∧ InTime wb we z.comp) ∧
    (r ∈ z.pres.validated ∨ ∃ i, z.pres.region = some i ∧ i.id = r)

/-- Whatever an element refers to that overlaps the window with all it is nested in is in use in the window. -/
def Backed (wb : Option Int) (we : Int) (n : Node Full) : Prop :=
  ∀ anc y ys, Reach n anc (.elem y ys) → (∀ z ∈ anc ++ [y], Doc.Overlaps ⟨wb, some we⟩ z.comp = true) → ∀ r ∈ refersTo y.att, InUse wb we n r

/-! ### Proofs -/

theorem segList_each {v : Env} : ∀ {kids : List (Node Lab)} {ks : List (Node Att)}, Doc.segList v kids = .ok ks →
    ∀ k ∈ kids, ∃ o, Doc.segNode v k = .ok o
  | q :: qs, ks, h, k, hk => by
    obtain ⟨oq, rest, hq, hrest, _⟩ := Doc.segList_cons h
    rcases List.mem_cons.1 hk with rfl | hk
    · exact ⟨oq, hq⟩
    · exact segList_each hrest k hk

/-- Copying got to every element all whose ancestors are in the window. -/
theorem segNode_reaches {v : Env} {n : Node Lab} {o : Option (Node Att)} (h : Doc.segNode v n = .ok o) {anc : List Lab} {k : Node Lab}
    (hr : Reach n anc k) (ha : ∀ z ∈ anc, Doc.Overlaps v.win z.comp = true) : ∃ o, Doc.segNode v k = .ok o := by
  induction hr with
  | here => exact ⟨o, h⟩
  | @step anc x kids k _ hk ih =>
    obtain ⟨o', ho'⟩ := ih (fun z hz => ha z (List.mem_append_left _ hz))
    rcases Doc.segNode_elem ho' with ⟨hin, _⟩ | ⟨_, a, ks, _, hks, _⟩
    · rw [Doc.inSeg_eq, ha x (by simp)] at hin; cases hin
    · exact segList_each hks k hk

theorem copyRefs_found {v : Env} : ∀ {ss out : List Name}, Doc.copyRefs v ss = .ok out → ∀ s ∈ ss, (v.ref s).isSome = true
  | q :: qs, out, h, s, hs => by
    rw [Doc.copyRefs] at h
    cases hq : v.ref q with
    | none => rw [hq] at h; cases h
    | some q' =>
      rw [hq] at h
      obtain ⟨rest, hrest, _⟩ := Doc.bind_ok h
      rcases List.mem_cons.1 hs with rfl | hs
      · rw [hq]; rfl
      · exact copyRefs_found hrest s hs

theorem copyAtt_found {v : Env} {a a' : Att} (h : Doc.copyAtt v a = .ok a') : ∀ r ∈ refersTo a, (v.ref r).isSome = true := by
  unfold Doc.copyAtt at h
  obtain ⟨reg, hreg, h⟩ := Doc.bind_ok h
  obtain ⟨st, hst, _⟩ := Doc.bind_ok h
  intro r hr
  rcases List.mem_append.1 hr with hr | hr
  · exact copyRefs_found hst r hr
  · unfold ownRegion at hr
    rw [Option.mem_toList] at hr
    rw [hr, Doc.copyRegion] at hreg
    cases hq : v.ref r with
    | none => rw [hq] at hreg; cases hreg
    | some q => rfl

/-- Which elements the timeline gives. -/
theorem mem_affected {wb : Option Int} {we : Int} (hlt : ∀ b, wb = some b → b < we) {n : Node Full} {z : Full} :
    z ∈ affected ⟨wb, some we⟩ n ↔
      z ∈ rootOf n ∨ ∃ i : Nat, (timed n)[i]? = some z ∧ InTime wb we z.comp := by
  unfold affected
  rw [List.mem_append, List.mem_filterMap]
  refine or_congr Iff.rfl ?_
  have hraw := (lookup_raw ((timed n).map Full.comp) ⟨wb, some we⟩).2
  constructor
  · rintro ⟨i, hi, hz⟩
    refine ⟨i, hz, ?_⟩
    obtain ⟨c, hc, h1, h2⟩ := (hraw i).1 hi
    rw [List.getElem?_map, hz, Option.map_some, Option.some.injEq] at hc
    subst hc
    refine ⟨h1 we rfl, fun b e hb he hbe => ?_⟩
    by_cases hle : e ≤ b
    · obtain ⟨m, hm, hme⟩ := h2 b e hb he hbe hle
      injection hm with hm
      have := hlt b hb
      omega
    · omega
  · rintro ⟨i, hz, h1, h2⟩
    refine ⟨i, (hraw i).2 ⟨z.comp, by rw [List.getElem?_map, hz]; rfl, fun m hm => by injection hm with hm; omega, ?_⟩, hz⟩
    intro b e hb he hbe hle
    have := h2 b e hb he hbe
    omega

theorem inUse_iff {wb : Option Int} {we : Int} (hlt : ∀ b, wb = some b → b < we) {n : Node Full} {r : Name} :
    InUse wb we n r ↔ r ∈ collStyles ⟨wb, some we⟩ n ∨ r ∈ collRegions ⟨wb, some we⟩ n := by
  have haff : ∀ z, (z ∈ rootOf n ∨ z ∈ labelsOf n ∧ (z.kind = .p ∨ z.kind = .span) ∧ InTime wb we z.comp) ↔
      z ∈ affected ⟨wb, some we⟩ n := by
    intro z
    rw [mem_affected hlt]
    refine or_congr Iff.rfl ?_
    constructor
    · rintro ⟨h1, h2, h3⟩
      obtain ⟨i, hi, e⟩ := List.getElem_of_mem (mem_timed.mpr ⟨h1, h2⟩)
      exact ⟨i, by rw [List.getElem?_eq_getElem hi, e], h3⟩
    · rintro ⟨i, hi, h3⟩
      have := mem_timed.mp (List.mem_of_getElem? hi)
      exact ⟨this.1, this.2, h3⟩
  unfold InUse collStyles collRegions
  rw [List.mem_flatMap, List.mem_filterMap]
  constructor
  · rintro ⟨z, hz, h | ⟨i, hi, e⟩⟩
    · exact .inl ⟨z, (haff z).1 hz, h⟩
    · exact .inr ⟨z, (haff z).1 hz, by rw [hi, ← e]; rfl⟩
  · rintro (⟨z, hz, h⟩ | ⟨z, hz, h⟩)
    · exact ⟨z, (haff z).2 hz, .inl h⟩
    · cases hi : z.pres.region with
      | none => rw [hi] at h; cases h
      | some i =>
        rw [hi, Option.map_some, Option.some.injEq] at h
        exact ⟨z, (haff z).2 hz, .inr ⟨i, hi, h⟩⟩

/-- Without gaps and nested regions everything referred to is in use. -/
theorem backed_of_noGaps {d : HDoc} {infos : List RInfo} {n : Node Full} (hv : d.validate = .ok (infos, n))
    (hs : Doc.shaped d.body = true) (hu : Style.unnested d.body = true) (hk : ∃ a kids, d.body = .elem a kids ∧ a.kind = .body)
    {wb : Option Int} {we : Int} (hlt : ∀ b, wb = some b → b < we) (hg : NoGaps ⟨wb, some we⟩ n) : Backed wb we n := by
  intro anc y ys hr hz r href
  obtain ⟨c1, c2⟩ := refs_collected hv hs hu hk hg hr (hz y (by simp))
  rw [inUse_iff hlt]
  rcases List.mem_append.1 href with h | h
  · exact .inl (c1 r h)
  · exact .inr (c2 r (by rwa [Option.mem_toList] at h))

/-- Styles and regions can always be copied. -/
theorem head_copied {d : HDoc} {infos : List RInfo} {n : Node Full} (hv : d.validate = .ok (infos, n)) (w : Win) (pre : Option Nat) :
    (∃ sh, copySheet (segEnv d w pre n) (collStyles w n) pre d.head.sheet = .ok sh) ∧
    ∃ rs, copyRegions (segEnv d w pre n) (collRegions w n) pre d.head.regions = .ok rs := by
  obtain ⟨hf, _⟩ := valid_facts hv
  refine ⟨copySheet_of ?_, copyRegions_of ?_⟩
  · intro e he hc t ht
    have hn := (validate_ok hv).1
    unfold HDoc.ids at hn
    rw [List.nodup_append, List.nodup_append] at hn
    exact (collStyles_closed hv).1 _ hc t ⟨_, find_of_mem hn.1.1 he, ht⟩
  · intro r hr hc t ht
    obtain ⟨y, hy, hyr⟩ := List.mem_filterMap.mp hc
    obtain ⟨i, hi, hid, href, _⟩ := info_of_region hv hr
    cases hreg : y.pres.region with
    | none => rw [hreg] at hyr; cases hyr
    | some j =>
      rw [hreg] at hyr
      simp only [Option.map_some, Option.some.injEq] at hyr
      obtain ⟨_, fy⟩ := hf y (affected_labels hy)
      have := infos_unique hv (fy.known j hreg) hi (by rw [hyr, hid])
      subst this
      exact List.mem_flatMap.mpr ⟨y, hy, fy.rstyles j hreg t ((refStyles_closed href).1 t ht)⟩

/-- What the elements in the window refer to is found. -/
theorem backed_refs {d : HDoc} {n : Node Full} {wb : Option Int} {we : Int} (hlt : ∀ b, wb = some b → b < we) (hbk : Backed wb we n)
    (pre : Option Nat) (anc : List Lab) (y : Lab) (ys : List (Node Lab)) (hr : Reach (mapN Full.lab n) anc (.elem y ys))
    (hz : ∀ z ∈ anc ++ [y], Doc.Overlaps ⟨wb, some we⟩ z.comp = true) :
    (∀ s ∈ y.att.style, ((segEnv d ⟨wb, some we⟩ pre n).ref s).isSome = true) ∧
      ∀ r, Doc.hasRegion y.att.kind = true → y.att.region = some r → ((segEnv d ⟨wb, some we⟩ pre n).ref r).isSome = true := by
  obtain ⟨anc0, y0, rfl, hy0, hr0⟩ := reach_of_mapN (f := Full.lab) hr
  cases y0 with
  | text t => simp [mapN] at hy0
  | br => simp [mapN] at hy0
  | elem y0 ys0 =>
    rw [mapN] at hy0
    simp only [Node.elem.injEq] at hy0
    obtain ⟨rfl, _⟩ := hy0
    have hall : ∀ r ∈ refersTo y0.att, ((segEnv d ⟨wb, some we⟩ pre n).ref r).isSome = true := by
      intro r hmem
      have hu := hbk anc0 y0 ys0 hr0 (by
        intro z hzm
        rcases List.mem_append.1 hzm with h1 | h1
        · exact hz z.lab (List.mem_append_left _ (List.mem_map.2 ⟨z, h1, rfl⟩))
        · rw [List.mem_singleton] at h1
          subst h1
          exact hz z.lab (List.mem_append_right _ (by simp))) r hmem
      rw [inUse_iff hlt] at hu
      have : (segEnv d ⟨wb, some we⟩ pre n).ref r = some (newName pre r) := if_pos hu
      rw [this]; rfl
    refine ⟨fun s hs' => hall s (List.mem_append_left _ hs'), fun r hhas hr' => hall r (List.mem_append_right _ ?_)⟩
    rw [Option.mem_toList]
    exact (if_pos hhas).trans hr'

/-- With a window that may be open at the front the extraction succeeds or there is nothing in the window. -/
theorem backed_cases (d : HDoc) (hst : d.styling = true) (hla : d.layout = true) (hk : ∃ a kids, d.body = .elem a kids ∧ a.kind = .body)
    (infos : List RInfo) (n : Node Full) (hv : d.validate = .ok (infos, n))
    (wb : Option Int) (we : Int) (hlt : ∀ b, wb = some b → b < we) (hbase : d.base = .media ∨ d.base = .clock ∧ we < 100 * 3600000000)
    (hover : ∀ x ∈ rootOf n, Doc.Overlaps ⟨wb, some we⟩ x.comp = true) (hbk : Backed wb we n)
    (pre : Option Nat) : (∃ s, d.extract ⟨wb, some we⟩ pre = .ok s) ∨
      ∃ a, Doc.segNode (segEnv d ⟨wb, some we⟩ pre n) (mapN Full.lab n) = .ok (some (.elem a [])) ∧ a.kind = .body := by
  obtain ⟨a, kids0, hb, hkind⟩ := hk
  obtain ⟨⟨sh, hsh⟩, rs, hrs⟩ := head_copied hv ⟨wb, some we⟩ pre
  have hbn := (validate_ok hv).2.2.2.2
  obtain ⟨o, hnode⟩ := Doc.segNode_exists (segEnv d ⟨wb, some we⟩ pre n) wb we rfl hlt hbase (mapN Full.lab n)
    (backed_refs hlt hbk pre)
  cases n with
  | text t => rw [hb] at hbn; simp [mapN] at hbn
  | br => rw [hb] at hbn; simp [mapN] at hbn
  | elem x kids =>
    rw [hb, mapN] at hbn
    simp only [Node.elem.injEq] at hbn
    have hkx : x.att.kind = .body := by rw [hbn.1]; exact hkind
    rw [mapN] at hnode
    rcases Doc.segment_of_node hnode hkx (hover x (by simp [rootOf])) with ⟨body, hbody⟩ | ⟨a', ho, ha'⟩
    · left
      have : ∃ s, segmentOf d ⟨wb, some we⟩ pre (.elem x kids) = .ok s := by
        unfold segmentOf
        simp only [mapN, hsh, hrs, hbody, bind, Except.bind, hst, hla]
        exact ⟨_, rfl⟩
      obtain ⟨s, hs'⟩ := this
      exact ⟨s, extract_of hv ⟨a, kids0, hb⟩ hs'⟩
    · right
      refine ⟨a', ?_, ha'⟩
      rw [mapN, hnode, ho]

/-- If there is a segment, the head has a styling and a layout, the body overlaps the window, and what elements refer to is in use. -/
theorem backed_of_extract {d : HDoc} {infos : List RInfo} {x : Full} {kids' : List (Node Full)} (hv : d.validate = .ok (infos, .elem x kids'))
    {wb : Option Int} {we : Int} (hlt' : ∀ b, wb = some b → b < we) {pre : Option Nat} {s : HDoc} (hs : d.extract ⟨wb, some we⟩ pre = .ok s) :
    d.styling = true ∧ d.layout = true ∧ (∀ y ∈ rootOf (.elem x kids'), Doc.Overlaps ⟨wb, some we⟩ y.comp = true) ∧
      Backed wb we (.elem x kids') := by
  have hseg : segmentOf d ⟨wb, some we⟩ pre (.elem x kids') = .ok s := by
    unfold HDoc.extract at hs
    rw [hv] at hs
    simp only at hs
    cases hq : segmentOf d ⟨wb, some we⟩ pre (.elem x kids') with
    | error e => rw [hq] at hs; cases hs
    | ok s' =>
      rw [hq] at hs
      simp only at hs
      cases hr : s'.validate with
      | error e => rw [hr] at hs; cases hs
      | ok r => rw [hr] at hs; injection hs with hs; rw [hs]
  have hsl : d.styling = true ∧ d.layout = true := by
    unfold segmentOf at hseg
    obtain ⟨sh, _, h⟩ := Doc.bind_ok hseg
    obtain ⟨rs, _, h⟩ := Doc.bind_ok h
    obtain ⟨b, _, h⟩ := Doc.bind_ok h
    by_cases hc : d.styling = false ∨ d.layout = false
    · rw [if_pos hc] at h; cases h
    · cases h1 : d.styling <;> cases h2 : d.layout <;> simp_all
  have hbody := (segmentOf_ok hseg).2.2.2.2.1
  rw [mapN] at hbody
  unfold Doc.segment at hbody
  obtain ⟨o, hnode, hbody⟩ := Doc.bind_ok hbody
  refine ⟨hsl.1, hsl.2, ?_, ?_⟩
  · intro y hy
    simp only [rootOf, List.mem_singleton] at hy
    subst hy
    rcases Doc.segNode_elem hnode with ⟨_, rfl⟩ | ⟨hin, _⟩
    · cases hbody
    · rw [← Doc.inSeg_eq]; exact hin
  · intro anc y ys hr hz r href
    have hr' := reach_mapN (f := Full.lab) hr
    rw [mapN, mapN] at hr'
    obtain ⟨o', ho'⟩ := segNode_reaches hnode hr' (by
      intro z hzm
      obtain ⟨z0, hz0, rfl⟩ := List.mem_map.1 hzm
      exact hz z0 (List.mem_append_left _ hz0))
    rcases Doc.segNode_elem ho' with ⟨hin, _⟩ | ⟨_, a', ks, hca, _⟩
    · have hyo := hz y (by simp)
      have hin' : Doc.inSeg ⟨wb, some we⟩ y.comp = false := hin
      rw [Doc.inSeg_eq, hyo] at hin'; cases hin'
    · have hfound := copyAtt_found hca r href
      rw [inUse_iff hlt']
      by_cases hc : r ∈ collStyles ⟨wb, some we⟩ (.elem x kids') ∨ r ∈ collRegions ⟨wb, some we⟩ (.elem x kids')
      · exact hc
      · have : (segEnv d ⟨wb, some we⟩ pre (.elem x kids')).ref r = none := if_neg hc
        rw [this] at hfound; cases hfound

/-- **C55.** Exactly when a segment can be cut out of a valid document, for a window `[wb, we)` with `wb < we` (below a hundred hours on a
clock): its head has a styling and a layout, the body overlaps the window, and whatever an element refers to that overlaps the window with
all it is nested in is in use in the window. Regions inside regions and divs with nothing to show make it fail only if they refer to what
nothing else in the window uses. -/
theorem C55_exact (d : HDoc) (a : Att) (kids : List (Node Att)) (hb : d.body = .elem a kids) (hkind : a.kind = .body)
    (infos : List RInfo) (n : Node Full) (hv : d.validate = .ok (infos, n))
    (wb we : Int) (hlt : wb < we) (hbase : d.base = .media ∨ d.base = .clock ∧ we < 100 * 3600000000) (pre : Option Nat) :
    (∃ s, d.extract ⟨some wb, some we⟩ pre = .ok s) ↔
      d.styling = true ∧ d.layout = true ∧ (∀ x ∈ rootOf n, Doc.Overlaps ⟨some wb, some we⟩ x.comp = true) ∧ Backed (some wb) we n := by
  have hbn := (validate_ok hv).2.2.2.2
  have hlt' : ∀ b, some wb = some b → b < we := by intro b hb; injection hb with hb; omega
  cases n with
  | text t => rw [hb] at hbn; simp [mapN] at hbn
  | br => rw [hb] at hbn; simp [mapN] at hbn
  | elem x kids' =>
    rw [hb, mapN] at hbn
    simp only [Node.elem.injEq] at hbn
    have hkx : x.lab.att.kind = .body := by
      show x.att.kind = _
      rw [hbn.1]; exact hkind
    constructor
    · rintro ⟨s, hs⟩
      exact backed_of_extract hv hlt' hs
    · rintro ⟨hst, hla, hover, hbk⟩
      obtain ⟨⟨sh, hsh⟩, rs, hrs⟩ := head_copied hv ⟨some wb, some we⟩ pre
      obtain ⟨body, hbody⟩ := Doc.C23_segment_exists (segEnv d ⟨some wb, some we⟩ pre (.elem x kids')) wb we rfl hlt hbase x.lab
        (mapNL Full.lab kids') hkx (hover x (by simp [rootOf])) (backed_refs hlt' hbk pre)
      have : ∃ s, segmentOf d ⟨some wb, some we⟩ pre (.elem x kids') = .ok s := by
        unfold segmentOf
        simp only [mapN, hsh, hrs, hbody, bind, Except.bind, hst, hla]
        exact ⟨_, rfl⟩
      obtain ⟨s, hs'⟩ := this
      exact ⟨s, extract_of hv ⟨a, kids, hb⟩ hs'⟩

/-- The document of `C55_false_gap`, but something else in the window refers to the style. -/
def exGapUsed : Node Att := .elem { kind := .body } [.elem { kind := .div } [line none ["s".toList] 1 8 "c"],
  .elem { kind := .div, style := ["s".toList] } [line none [] 1 4 "a", line none [] 6 8 "b"]]

/-- The hypotheses are met, and both happen: with the style in use elsewhere a gap does no harm, without it does. -/
example : (docOf exGapUsed).validate.toOption.isSome = true ∧ (docOf exGap).validate.toOption.isSome = true ∧
    (docOf exGapUsed).base = .media ∧ (docOf exGap).base = .media ∧
    ((docOf exGapUsed).extract ⟨some 4000000, some 5000000⟩ none).toOption.isSome = true ∧
    ((docOf exGap).extract ⟨some 4000000, some 5000000⟩ none).toOption.isSome = false := by
  decide +kernel

end Verif.SegHead
