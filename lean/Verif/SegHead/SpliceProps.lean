import Verif.SegHead.SpliceLemmas
import Verif.SegHead.Exact

/-!
# C59: a resegmented document is valid and looks like the documents that were active
-/
namespace Verif.SegHead

open Verif.Doc (Node Att Kind Lab Comp Win Env SErr TErr Reach bind_ok Item Leaf Visible items leaves leavesL isSpan plain plainL contentOf
  SegBody Fit shaped shapedL Cov)
open Verif.Style (Head PLab RInfo RegionDef PErr Name Sheet Specified Computed Refers refStyles ownRegion setRegion present presentL presentRegions
  presentRegion resolve)

/-! ### Specification -/

/-- What a document shows at an instant, and how; nothing if it is not valid. -/
def piecesOf (d : HDoc) (t : Int) : List Piece :=
  match d.validate with
  | .ok r => piecesAt r.2 t
  | .error _ => []

/-- What a returned document shows; an empty one shows nothing. -/
def piecesBy (out : Option HDoc) (t : Int) : List Piece :=
  match out with
  | none => []
  | some d => piecesOf d t

/-- Wherever a p or span is in a window, whatever the elements in the window refer to is in use in it.  Windows without one do not
matter: there is nothing in them to be lost. -/
def Safe (n : Node Full) : Prop :=
  ∀ wb we, (∀ b, wb = some b → b < we) → (∃ z ∈ labelsOf n, (z.kind = .p ∨ z.kind = .span) ∧ Doc.Overlaps ⟨wb, some we⟩ z.comp = true) →
    Backed wb we n

/-- What is assumed of a held document `h` that the sequence knows as `d`. -/
structure Held (h : HDoc) (d : Seq.Doc) (hi : Int) : Prop where
  regular : Regular h
  styling : h.styling = true
  layout : h.layout = true
  base : h.base = .media ∨ h.base = .clock ∧ hi < 100 * 3600000000
  /-- the body refers to no style -/
  plainBody : ∀ a kids, h.body = .elem a kids → a.style = []
  /-- it is valid, what its elements refer to is in use when there is something to show, and its computed times are those that the sequence works with -/
  valid : ∃ infos x kids, h.validate = .ok (infos, .elem x kids) ∧ d.cbegin = x.comp.b ∧ d.cend = x.comp.e ∧
    Safe (.elem x kids)

/-- Less than `Held`: of a document that is held, only this is needed for a segment to look like the document if there is a segment. -/
structure Kept (h : HDoc) (d : Seq.Doc) : Prop where
  regular : Regular h
  /-- the body refers to no style -/
  plainBody : ∀ a kids, h.body = .elem a kids → a.style = []
  /-- it is valid and its computed times are those that the sequence works with -/
  valid : ∃ infos x kids, h.validate = .ok (infos, .elem x kids) ∧ d.cbegin = x.comp.b ∧ d.cend = x.comp.e

theorem Held.kept {h : HDoc} {d : Seq.Doc} {hi : Int} (hh : Held h d hi) : Kept h d :=
  ⟨hh.regular, hh.plainBody, let ⟨i, x, k, h1, h2, h3, _⟩ := hh.valid; ⟨i, x, k, h1, h2, h3⟩⟩

/-! ### The spliced document -/

theorem nodup_part {a b c : List Name} (h : (a ++ b ++ c).Nodup) : a.Nodup ∧ b.Nodup := by
  rw [List.nodup_append] at h
  exact List.nodup_append.mp h.1 |>.elim fun h1 h2 => ⟨h1, h2.1⟩

theorem find_some_of_mem {α : Type} (f : α → Name) : ∀ {l : List α} {x : α}, (l.map f).Nodup → x ∈ l →
    l.find? (fun y => decide (f y = f x)) = some x
  | y :: l, x, hn, hx => by
    rw [List.map_cons, List.nodup_cons] at hn
    rw [List.find?_cons]
    by_cases he : f y = f x
    · simp only [he, decide_true]
      rcases List.mem_cons.mp hx with rfl | hx
      · rfl
      · exact absurd (he ▸ List.mem_map_of_mem hx) hn.1
    · simp only [he, decide_false]
      rcases List.mem_cons.mp hx with rfl | hx
      · exact absurd rfl he
      · exact find_some_of_mem f hn.2 hx

/-- Each segment's head is found in the head of the spliced document. -/
theorem Merged.within {segs : List HDoc} {acc : HDoc} (h : Merged segs acc) (hn : acc.sdoc.ids.Nodup)
    (hv : ∀ s ∈ segs, ∃ r, s.validate = .ok r) :
    ∃ iB, presentRegions acc.head acc.head.regions = .ok iB ∧
      ∀ s ∈ segs, ∀ iA n, s.validate = .ok (iA, n) → Within s.head iA acc.head iB := by
  have hn' := nodup_part hn
  rw [sdoc_styles h.styling, sdoc_regions h.layout] at hn'
  have hfind : ∀ s ∈ segs, ∀ x, (Style.find s.head.sheet x).isSome → Style.find acc.head.sheet x = Style.find s.head.sheet x ∧
      acc.head.own x = s.head.own x := by
    intro s hs x hx
    cases hf : Style.find s.head.sheet x with
    | none => rw [hf] at hx; simp at hx
    | some l =>
      unfold Style.find at hf
      rw [Option.map_eq_some_iff] at hf
      obtain ⟨e, he, rfl⟩ := hf
      have hm := List.mem_of_find?_eq_some he
      have hid := List.find?_some he
      simp only [decide_eq_true_eq] at hid
      subst hid
      refine ⟨?_, h.own s hs e.1 (List.mem_map_of_mem hm)⟩
      refine find_of_mem hn'.1 ?_
      rw [h.sheet]
      exact List.mem_flatten.mpr ⟨_, List.mem_map_of_mem hs, hm⟩
  have hreg : ∀ (l : List HDoc), (∀ s ∈ l, s ∈ segs) → ∃ iB, presentRegions acc.head (l.map (·.head.regions)).flatten = .ok iB ∧
      ∀ s ∈ l, ∀ iA n, s.validate = .ok (iA, n) → ∀ i ∈ iA, i ∈ iB := by
    intro l
    induction l with
    | nil => exact fun _ => ⟨[], rfl, by simp⟩
    | cons s l ih =>
      intro hl
      obtain ⟨iB, h1, h2⟩ := ih (fun q hq => hl q (List.mem_cons_of_mem _ hq))
      obtain ⟨⟨iA, n⟩, hr⟩ := hv s (hl s List.mem_cons_self)
      have hs := hl s List.mem_cons_self
      have h3 := regions_within (A := s.head) (B := acc.head) (fun x hx => (hfind s hs x hx).1) (fun x hx => (hfind s hs x hx).2) (h.geo s hs)
        (validate_ok hr).2.1
      refine ⟨iA ++ iB, by rw [List.map_cons, List.flatten_cons]; exact presentRegions_append h3 h1, ?_⟩
      intro q hq iA' n' hq' i hi
      rcases List.mem_cons.mp hq with rfl | hq
      · rw [hr] at hq'
        cases hq'
        exact List.mem_append_left _ hi
      · exact List.mem_append_right _ (h2 q hq iA' n' hq' i hi)
  obtain ⟨iB, h1, h2⟩ := hreg segs (fun s hs => hs)
  rw [← h.regions] at h1
  refine ⟨iB, h1, ?_⟩
  intro s hs iA n hsv
  refine ⟨fun x hx => (hfind s hs x hx).1, fun x hx => (hfind s hs x hx).2, h.geo s hs, ?_⟩
  intro r i hi
  have hm := h2 s hs iA n hsv i (List.mem_of_find?_eq_some hi)
  have hid := List.find?_some hi
  simp only [decide_eq_true_eq] at hid
  subst hid
  exact find_some_of_mem (fun i : RInfo => i.id) (by rw [forall₂_ids (presentRegions_ok h1)]; exact hn'.2) hm

/-- The content of a valid segment under the body's style, which is the initial one. -/
theorem seg_content {d : HDoc} {infos : List RInfo} {n : Node Full} (hv : d.validate = .ok (infos, n)) (hb : SegBody d.body)
    (hp : ∀ a kids, d.body = .elem a kids → a.style = []) :
    ∃ x ks r, n = .elem x ks ∧ x.kind = .body ∧
      presentL d.head infos ⟨[[]], none⟩ (some (Style.compute d.head.geo {} none none true)) (contentOf d.body) = .ok r ∧
      mapNL faceOf r.2 = mapNL (fun x => faceOf x.pres) ks := by
  obtain ⟨a, hba, hk, _⟩ := hb.elem
  obtain ⟨_, _, _, ⟨pc, h2⟩, h3⟩ := validate_ok hv
  generalize contentOf d.body = cs at *
  rw [hba] at h2 h3
  obtain ⟨rg, refd, q, g1, g2, g3, g4⟩ := Style.present_elem h2
  have hst := hp a cs hba
  rw [hst] at g2
  have hrefd : refd = [] := by
    have : refStyles d.head [] = .ok [] := rfl
    rw [this] at g2
    cases g2
    rfl
  subst hrefd
  have hrg : rg = none := by
    unfold setRegion at g1
    rw [hk] at g1
    simp only [Doc.hasRegion] at g1
    cases g1
    rfl
  subst hrg
  cases n with
  | text t => simp [mapN] at h3
  | br => simp [mapN] at h3
  | elem x ks =>
    rw [mapN] at h3
    simp only [Node.elem.injEq] at h3
    rw [mapN] at g4
    have hpair := (Prod.mk.inj g4).2
    simp only [Node.elem.injEq] at hpair
    refine ⟨x, ks, q, rfl, by show x.att.kind = _; rw [h3.1]; exact hk, ?_, ?_⟩
    · have : (Style.label d.head a [] none none []).comp = Style.compute d.head.geo {} none none true := by
        simp [Style.label, hk, Style.defers, resolve]
      rw [← this]
      exact g3
    · rw [← hpair.2]
      exact mapNL_mapNL _ _ ks

/-- The spliced document is valid and shows what the segments show, one after the other. -/
theorem merged_pieces {segs : List HDoc} {acc : HDoc} (h : Merged segs acc) (hn : acc.sdoc.ids.Nodup)
    (hv : ∀ s ∈ segs, (∃ r, s.validate = .ok r) ∧ SegBody s.body ∧ (∀ a kids, s.body = .elem a kids → a.style = []) ∧ s.avail = 0) :
    acc.validate.isOk = true ∧ ∀ t, piecesOf acc t = (segs.map (fun s => piecesOf s t)).flatten := by
  obtain ⟨iB, hreg, hwith⟩ := h.within hn (fun s hs => (hv s hs).1)
  let facesOf : HDoc → List (Node Face) := fun s =>
    match s.validate with
    | .ok (_, .elem _ ks) => mapNL (fun x => faceOf x.pres) ks
    | _ => []
  let infosOf : HDoc → List RInfo := fun s =>
    match s.validate with
    | .ok (i, _) => i
    | _ => []
  have hgeo : ∀ s ∈ segs, s.head.geo = acc.head.geo := fun s hs => (h.geo s hs).symm
  obtain ⟨a, hba, hk, _⟩ := h.body.elem
  have hst := h.plainBody a _ hba
  have hcon := present_contents (B := acc.head) (iB := iB) (par := some (Style.compute acc.head.geo {} none none true))
    (segs.map (fun s => ⟨s.head, infosOf s, contentOf s.body, facesOf s⟩)) (contentOf acc.body) ⟨[[]], none⟩ (by
      intro x hx
      obtain ⟨s, hs, rfl⟩ := List.mem_map.mp hx
      obtain ⟨⟨⟨i, n⟩, hr⟩, hb, hp, _⟩ := hv s hs
      obtain ⟨x, ks, r, rfl, _, g1, g2⟩ := seg_content hr hb hp
      have e1 : infosOf s = i := by simp only [infosOf, hr]
      have e2 : facesOf s = mapNL (fun x => faceOf x.pres) ks := by simp only [facesOf, hr]
      simp only [e1, e2]
      rw [hgeo s hs] at g1
      exact ⟨hwith s hs i _ hr, _, r, rfl, g1, g2⟩)
    (by rw [h.content, List.map_map]; rfl) rfl
  obtain ⟨r, hr1, _, hr2⟩ := hcon
  have hpres : ∃ p, present acc.head iB ⟨[], none⟩ none acc.body = .ok p := by
    rw [hba]
    have hlab : (Style.label acc.head a [] none none []).comp = Style.compute acc.head.geo {} none none true := by
      simp [Style.label, hk, Style.defers, resolve]
    have hset : setRegion iB a none = .ok none := by
      unfold setRegion
      rw [hk]
      rfl
    rw [present, hst]
    have : refStyles acc.head [] = .ok [] := rfl
    rw [this]
    simp only [hset, bind, Except.bind, hlab]
    rw [show ([] : List (List Name)) ++ [[]] = [[]] from rfl, hr1]
    exact ⟨_, rfl⟩
  obtain ⟨⟨pc, p⟩, hpres⟩ := hpres
  obtain ⟨m, hm⟩ := validate_of (by rw [ids_sdoc h.styling h.layout h.body]; exact hn) hreg hpres
  refine ⟨by rw [hm]; rfl, ?_⟩
  intro t
  obtain ⟨x, ks, r', rfl, _, g1, g2⟩ := seg_content hm h.body h.plainBody
  rw [hr1] at g1
  cases g1
  have hacc : piecesOf acc t = piecesIn (mapNL (fun x => faceOf x.pres) ks) t := by
    unfold piecesOf
    rw [hm]
    exact pieces_faces hm h.body h.avail t
  rw [hacc, ← g2, hr2, piecesIn_flatten, List.map_map, List.map_map]
  congr 1
  apply List.map_congr_left
  intro s hs
  obtain ⟨⟨⟨i, n⟩, hr⟩, hb, hp, ha⟩ := hv s hs
  obtain ⟨x', ks', r', rfl, _, _, _⟩ := seg_content hr hb hp
  show piecesIn (facesOf s) t = piecesOf s t
  have e2 : facesOf s = mapNL (fun x => faceOf x.pres) ks' := by simp only [facesOf, hr]
  rw [e2, ← pieces_faces hr hb ha t]
  unfold piecesOf
  rw [hr]

/-! ### One segment -/

theorem extract_isSeg {d s : HDoc} {w : Win} {n : Nat} (hd : shaped d.body = true) (hk : ∃ a kids, d.body = .elem a kids ∧ a.kind = .body)
    (hp : ∀ a kids, d.body = .elem a kids → a.style = []) (h : d.extract w (some n) = .ok s) :
    IsSeg n s ∧ s.head.geo = d.head.geo ∧ ∃ r, s.validate = .ok r := by
  obtain ⟨infos, m, hv, hs⟩ := extract_ok h
  obtain ⟨a, kids, hb, hkind⟩ := hk
  have hbd : ∃ a kids, d.body = .elem a kids := ⟨a, kids, hb⟩
  obtain ⟨r, hr⟩ := segment_valid hv hbd hs
  obtain ⟨_, _, _, hgeo, hseg, hav, _⟩ := segmentOf_ok hs
  obtain ⟨_, _, hlab, _, hatt⟩ := validate_ok hv
  have hbody : SegBody s.body := by
    have herase : Doc.erase (Doc.times d.avail 0 none d.body) = d.body := by rw [← hlab, erase_mapN, hatt]
    rw [hlab] at hseg
    rw [hb] at hseg herase
    refine Doc.segment_body (x := ⟨a, _⟩) hkind ?_ hseg
    rw [hb, ← herase] at hd
    exact hd
  have hflags : (s.styling = false → s.head.sheet = []) ∧ s.layout = true := by
    unfold segmentOf at hs
    obtain ⟨sh, h1, hs⟩ := bind_ok hs
    obtain ⟨rs, h2, hs⟩ := bind_ok hs
    obtain ⟨b, h3, hs⟩ := bind_ok hs
    split at hs
    · cases hs
    · simp only [pure, Except.pure] at hs
      cases hs
      simp only [Bool.not_eq_false', List.isEmpty_iff, and_true]
      exact id
  have hids := ids_sdoc hflags.1 (by rw [hflags.2]; simp) hbody
  obtain ⟨l, hl, hn⟩ := seg_ids hv hbd hs
  refine ⟨⟨hflags.1, by rw [hflags.2]; simp, hbody, ?_, hav, ?_, ?_⟩, hgeo, r, hr⟩
  · intro a' ks' he
    obtain ⟨c, hc, hcop⟩ := seg_body hv hbd hs
    cases m with
    | text t => rw [hb] at hatt; simp [mapN] at hatt
    | br => rw [hb] at hatt; simp [mapN] at hatt
    | elem x ks =>
      rw [hb, mapN] at hatt
      simp only [Node.elem.injEq] at hatt
      have hcx : ∃ cs, c = .elem x cs := by
        rw [cut] at hc
        split at hc
        · split at hc
          · cases hc
          · cases hc; exact ⟨_, rfl⟩
        · cases hc
      obtain ⟨cs, rfl⟩ := hcx
      rw [he, Copied] at hcop
      have hst := hcop.2.2.2.1
      rw [hatt.1, hp a kids hb, Doc.copyRefs] at hst
      injection hst with hst
      exact hst.symm
  · intro x hx
    rw [← hids, hn] at hx
    obtain ⟨y, _, rfl⟩ := List.mem_map.mp hx
    exact ⟨y, rfl⟩
  · rw [← hids]
    exact (validate_ok hr).1

theorem pieces_nil {n : Node Full} {t : Int} (h : Doc.shownAt (mapN Full.lab n) t = []) : piecesAt n t = [] := by
  unfold Doc.shownAt at h
  unfold piecesAt
  rw [List.map_eq_nil_iff, List.filter_eq_nil_iff] at h ⊢
  intro l hl
  refine h (l.1.lab, l.2) ?_
  show _ ∈ Doc.leavesOf _
  rw [leavesOf_mapN]
  exact List.mem_map.mpr ⟨l, hl, rfl⟩

/-- Nothing is shown in a window that no p or span is in. -/
theorem nothing_shown {n : Node Full} {w : Win} (h : ¬∃ z ∈ labelsOf n, (z.kind = .p ∨ z.kind = .span) ∧ Doc.Overlaps w z.comp = true)
    {t : Int} (ht : w.at t = true) : Doc.shownAt (mapN Full.lab n) t = [] := by
  unfold Doc.shownAt
  rw [List.map_eq_nil_iff, List.filter_eq_nil_iff]
  intro l hl hat
  have hl' : l ∈ (leaves Full.kind n).map (fun l => (l.1.lab, l.2)) := by rw [← leavesOf_mapN]; exact hl
  obtain ⟨⟨z, c⟩, hz, rfl⟩ := List.mem_map.1 hl'
  obtain ⟨anc, kids, hr, hleaf, _, _⟩ := Doc.mem_leaves n (z, c) hz
  refine h ⟨z, (labels_of_reach hr).2 z (by simp [labelsOf]), ?_, ?_⟩
  · unfold Leaf at hleaf
    simp only [Bool.and_eq_true, Bool.or_eq_true, decide_eq_true_eq] at hleaf
    exact hleaf.1
  · have hat : z.comp.at t = true := hat
    unfold Doc.Overlaps
    unfold Win.at at ht
    unfold Comp.at at hat
    cases hb : w.b <;> cases he : w.e <;> cases hce : z.comp.e <;> simp_all <;> omega

/-- What a held document shows, for use with what is known of its times. -/
theorem kept_cov {h : HDoc} {d : Seq.Doc} (hh : Kept h d) : ∃ infos x kids, h.validate = .ok (infos, .elem x kids) ∧
    d.cbegin = x.comp.b ∧ d.cend = x.comp.e ∧ Cov (mapN Full.lab (.elem x kids)) ∧ x.kind = .body ∧
    (∀ t, piecesOf h t = piecesAt (.elem x kids) t) ∧ mapN Full.lab (.elem x kids) = Doc.times h.avail 0 none h.body := by
  obtain ⟨infos, x, kids, hv, hb, he⟩ := hh.valid
  obtain ⟨_, _, hlab, _, hatt⟩ := validate_ok hv
  obtain ⟨a, ks, hbody, hk⟩ := hh.regular.sane.body
  refine ⟨infos, x, kids, hv, hb, he, ?_, ?_, ?_, hlab⟩
  · rw [hlab]; exact Doc.cov_times hh.regular.sane hh.regular.wellTimed
  · rw [hbody, mapN] at hatt
    simp only [Node.elem.injEq] at hatt
    show x.att.kind = _
    rw [hatt.1]; exact hk
  · intro t
    unfold piecesOf
    rw [hv]

theorem held_cov {h : HDoc} {d : Seq.Doc} {hi : Int} (hh : Held h d hi) : ∃ infos x kids, h.validate = .ok (infos, .elem x kids) ∧
    d.cbegin = x.comp.b ∧ d.cend = x.comp.e ∧ Cov (mapN Full.lab (.elem x kids)) ∧ x.kind = .body ∧
    (∀ t, piecesOf h t = piecesAt (.elem x kids) t) ∧ mapN Full.lab (.elem x kids) = Doc.times h.avail 0 none h.body :=
  kept_cov hh.kept

/-- A document shows nothing outside its computed interval. -/
theorem kept_outside {h : HDoc} {d : Seq.Doc} (hh : Kept h d) {t : Int}
    (ht : t < d.cbegin ∨ ∃ e, d.cend = some e ∧ e ≤ t) : piecesOf h t = [] := by
  obtain ⟨infos, x, kids, hv, hb, he, hcov, _, hp, _⟩ := kept_cov hh
  rw [hp]
  apply pieces_nil
  rw [mapN] at hcov ⊢
  unfold Doc.shownAt
  rw [List.map_eq_nil_iff, List.filter_eq_nil_iff]
  intro l hl hat
  obtain ⟨anc, ks, hr, _⟩ := Doc.mem_leaves _ l hl
  obtain ⟨c1, c2⟩ := hcov.root hr l.1 ks rfl
  simp only [Comp.at, Bool.and_eq_true, decide_eq_true_eq] at hat
  have hb' : d.cbegin = x.lab.comp.b := hb
  have he' : d.cend = x.lab.comp.e := he
  rcases ht with ht | ⟨e, hde, hle⟩
  · omega
  · rw [he'] at hde
    obtain ⟨e', h1, h2⟩ := c2 e hde
    rw [h1] at hat
    simp only [decide_eq_true_eq] at hat
    omega

/-- If there is a segment for a window it looks like the document in it. -/
theorem kept_pieces {h : HDoc} {d : Seq.Doc} (hh : Kept h d) (num : Nat) {wb we : Option Int}
    (hb : ∀ b, wb = some b → b % 1000 = 0) (he : ∀ e, we = some e → e % 1000 = 0) {s : HDoc} (hx : h.extract ⟨wb, we⟩ (some num) = .ok s) (t : Int) :
    List.Forall₂ (SamePiece (some num)) (if Win.at ⟨wb, we⟩ t then piecesOf h t else []) (piecesOf s t) := by
  obtain ⟨infos, x, kids, hv, _, _, hcov, hk, hp, _⟩ := kept_cov hh
  obtain ⟨a, ks, hbody, hkind⟩ := hh.regular.sane.body
  obtain ⟨_, _, ⟨infos', m⟩, hr⟩ := extract_isSeg hh.regular.shaped ⟨a, ks, hbody, hkind⟩ hh.plainBody hx
  have := C56_segment_shows_the_same_partial h hh.regular infos _ hv ⟨wb, we⟩
    (by
      intro t ht
      rcases ht with ht | ht
      · exact hb t ht
      · exact he t ht) (some num) s hx infos' m hr t
  rw [hp]
  unfold piecesOf
  rw [hr]
  exact this

/-- Where what is referred to is in use, the segment of one window looks like the document in it. -/
theorem backed_pieces {h : HDoc} {d : Seq.Doc} (hh : Kept h d) (hst : h.styling = true) (hla : h.layout = true) (num : Nat)
    {wb : Option Int} {we : Int} (hbase : h.base = .media ∨ h.base = .clock ∧ we < 100 * 3600000000)
    (hb : ∀ b, wb = some b → b % 1000 = 0) (he : we % 1000 = 0)
    (hg : ∀ infos n, h.validate = .ok (infos, n) → (∀ b, wb = some b → b < we) →
      (∃ z ∈ labelsOf n, (z.kind = .p ∨ z.kind = .span) ∧ Doc.Overlaps ⟨wb, some we⟩ z.comp = true) → Backed wb we n) (t : Int) :
    List.Forall₂ (SamePiece (some num)) (if Win.at ⟨wb, some we⟩ t then piecesOf h t else [])
      ((h.extract ⟨wb, some we⟩ (some num)).toOption.elim [] (fun s => piecesOf s t)) := by
  obtain ⟨infos, x, kids, hv, _, _, hcov, hk, hp, _⟩ := kept_cov hh
  obtain ⟨a, ks, hbody, hkind⟩ := hh.regular.sane.body
  cases hx : h.extract ⟨wb, some we⟩ (some num) with
  | ok s => exact kept_pieces hh num hb (by intro e h; injection h with h; omega) hx t
  | error err =>
    show List.Forall₂ _ _ []
    by_cases ht : Win.at ⟨wb, some we⟩ t = true
    · rw [if_pos ht, hp]
      have hlt : ∀ b, wb = some b → b < we := by
        intro b hb
        simp only [Win.at, hb, Bool.and_eq_true, decide_eq_true_eq] at ht
        omega
      have : piecesAt (.elem x kids) t = [] := by
        apply pieces_nil
        by_cases ho : Doc.Overlaps ⟨wb, some we⟩ x.comp = true
        · by_cases hany : ∃ z ∈ labelsOf (.elem x kids), (z.kind = .p ∨ z.kind = .span) ∧ Doc.Overlaps ⟨wb, some we⟩ z.comp = true
          swap
          · exact nothing_shown hany ht
          rcases backed_cases h hst hla
            ⟨a, ks, hbody, hkind⟩ infos _ hv wb we hlt hbase
            (by
              intro y hy
              simp only [rootOf, List.mem_singleton] at hy
              rw [hy]
              exact ho) (hg infos _ hv hlt hany) (some num) with ⟨s, hs⟩ | ⟨a', hnode, ha'⟩
          · rw [hs] at hx
            cases hx
          · have hatt := (validate_ok hv).2.2.2.2
            exact Doc.empty_shown hcov (by rw [erase_mapN, hatt]; exact hh.regular.shaped)
              (by rw [erase_mapN, hatt]; exact hh.regular.unmixed) ha' hnode ht
        · rw [Bool.not_eq_true] at ho
          rw [mapN] at hcov ⊢
          exact Doc.not_overlaps_shown hcov rfl ho ht
      rw [this]
      exact .nil
    · rw [if_neg ht]
      exact .nil

/-- The segment of one window looks like the document in it. -/
theorem window_pieces {h : HDoc} {d : Seq.Doc} {hi : Int} (hh : Held h d hi) (num : Nat) {wb : Option Int} {we : Int}
    (hhi : we ≤ hi) (hb : ∀ b, wb = some b → b % 1000 = 0) (he : we % 1000 = 0) (t : Int) :
    List.Forall₂ (SamePiece (some num)) (if Win.at ⟨wb, some we⟩ t then piecesOf h t else [])
      ((h.extract ⟨wb, some we⟩ (some num)).toOption.elim [] (fun s => piecesOf s t)) := by
  refine backed_pieces hh.kept hh.styling hh.layout num ?_ hb he ?_ t
  · rcases hh.base with hb | ⟨hb, h1⟩
    · exact .inl hb
    · exact .inr ⟨hb, by omega⟩
  · intro infos n hv hlt hany
    obtain ⟨infos0, x0, kids0, hv0, _, _, hg⟩ := hh.valid
    rw [hv] at hv0
    cases hv0
    exact hg wb we hlt hany

/-! ### C59 -/

theorem flatten_unique {α γ : Type} (p : α → Bool) (g : α → List γ) : ∀ (ws : List α),
    ws.Pairwise (fun a b => ¬(p a = true ∧ p b = true)) → (∀ w ∈ ws, p w = false → g w = []) → ∀ w ∈ ws, p w = true →
    (ws.map g).flatten = g w
  | [], _, _, w, hw, _ => by simp at hw
  | x :: ws, hp, hg, w, hw, hpw => by
    rw [List.pairwise_cons] at hp
    rw [List.map_cons, List.flatten_cons]
    rcases List.mem_cons.mp hw with rfl | hw
    · have : (ws.map g).flatten = [] := by
        rw [List.flatten_eq_nil_iff]
        intro l hl
        obtain ⟨w', hw', rfl⟩ := List.mem_map.mp hl
        refine hg w' (List.mem_cons_of_mem _ hw') ?_
        exact Bool.not_eq_true _ ▸ (fun hc => hp.1 w' hw' ⟨hpw, hc⟩)
      rw [this, List.append_nil]
    · have : g x = [] := hg x List.mem_cons_self (Bool.not_eq_true _ ▸ (fun hc => hp.1 w hw ⟨hc, hpw⟩))
      rw [this, List.nil_append]
      exact flatten_unique p g ws hp.2 (fun w' hw' => hg w' (List.mem_cons_of_mem _ hw')) w hw hpw

theorem eq_of_name {α : Type} (n : α → Nat) : ∀ {l : List α} {x y : α}, (l.map n).Nodup → x ∈ l → y ∈ l → n x = n y → x = y
  | z :: l, x, y, hn, hx, hy, he => by
    rw [List.map_cons, List.nodup_cons] at hn
    rcases List.mem_cons.mp hx with h1 | h1 <;> rcases List.mem_cons.mp hy with h2 | h2
    · rw [h1, h2]
    · rw [← h1, he] at hn
      exact absurd (List.mem_map_of_mem h2) hn.1
    · rw [← h2, ← he] at hn
      exact absurd (List.mem_map_of_mem h1) hn.1
    · exact eq_of_name n hn.2 h1 h2 he

theorem filterMap_fst {α β : Type} (f : α → Option β) (n : α → Nat) : ∀ ws : List α,
    ((ws.filterMap (fun w => (f w).map (fun s => (n w, s)))).map (·.1)).Sublist (ws.map n)
  | [] => by simp
  | w :: ws => by
    cases hf : f w with
    | none =>
      rw [List.filterMap_cons_none (by rw [hf]; rfl), List.map_cons]
      exact .cons _ (filterMap_fst f n ws)
    | some x =>
      rw [List.filterMap_cons_some (b := (n w, x)) (by rw [hf]; rfl), List.map_cons, List.map_cons]
      exact .cons_cons _ (filterMap_fst f n ws)

/-- What the segment of one window of the request shows at `t`; nothing if there is no segment. -/
def windowPieces (docs : Seq.Doc → HDoc) (t : Int) (w : Seq.Doc × Option Int × Option Int) : List Piece :=
  ((docs w.1).extract ⟨w.2.1, w.2.2⟩ (some w.1.num)).toOption.elim [] (fun s => piecesOf s t)

/-- What a resegmented document shows, by the windows of the request. -/
theorem by_windows {cfg : Seq.Cfg} {agid : Option String} {s : Seq.State} {log : List Seq.Doc}
    (h : Seq.Reach cfg agid s log) (docs : Seq.Doc → HDoc) (lo hi : Option Int)
    (hlo : ∀ b, lo = some b → b % 1000 = 0) (hhi : ∀ e, hi = some e → e % 1000 = 0)
    (hlh : ∀ b e, lo = some b → hi = some e → b ≤ e)
    (hheld : ∀ d ∈ s.docs, Kept (docs d) d)
    (hgeo : ∀ d ∈ s.docs, ∀ d' ∈ s.docs, (docs d).head.geo = (docs d').head.geo) :
    ∃ ws out, Seq.extractWindows s lo hi = some ws ∧ extractFull s docs lo hi = some out ∧ (∀ o, out = some o → o.validate.isOk = true) ∧
      (∀ w ∈ ws, w.1 ∈ s.docs ∧ (∀ b, w.2.1 = some b → b % 1000 = 0) ∧ (∀ e, w.2.2 = some e → e % 1000 = 0) ∧
        (∃ r, Seq.resolvedEnd s w.1 = some r ∧ w.2.2 = Seq.winEnd hi r) ∧
        ∀ c, hi = some c → ∃ we, w.2.2 = some we ∧ we ≤ c) ∧
      (ws.map (·.1.num)).Nodup ∧
      ∀ t, (Win.at ⟨lo, hi⟩ t = true →
          (∀ a, Seq.ActiveAt s a t → ∃ w ∈ ws, w.1 = a ∧ Win.at ⟨w.2.1, w.2.2⟩ t = true ∧ piecesBy out t = windowPieces docs t w) ∧
          ((∀ a, ¬ Seq.ActiveAt s a t) → piecesBy out t = [])) ∧
        (Win.at ⟨lo, hi⟩ t = false → piecesBy out t = []) := by
  obtain ⟨ws, hws, hcons, hfst, hin, hpw, hact⟩ := Seq.C12_windows h lo hi hlh
  have hwd : ∀ w ∈ ws, w.1 ∈ s.docs := by
    intro w hw
    have : w.1 ∈ ws.map (·.1) := List.mem_map_of_mem hw
    rw [hfst, List.mem_filter] at this
    exact this.1
  have hnums : (ws.map (·.1.num)).Nodup := by
    have h1 : (s.docs.map (·.num)).Nodup := by
      rw [List.nodup_iff_pairwise_ne, List.pairwise_map]
      exact h.inv.core.drel.imp (fun hab => by have := hab.1; omega)
    have h2 : ((ws.map (·.1)).map (·.num)).Nodup := by
      rw [hfst]
      exact (List.Sublist.map _ List.filter_sublist).nodup h1
    rw [List.map_map] at h2
    exact h2
  have hends := Doc.windows_ends _ _ ws hws
  -- the windows' bounds
  have hdms : ∀ d ∈ s.docs, d.cbegin % 1000 = 0 ∧ ∀ e, d.cend = some e → e % 1000 = 0 := by
    intro d hd
    obtain ⟨_, x, kids, _, hb, he, _, _, _, hlab⟩ := kept_cov (hheld d hd)
    have := Doc.times_whole (hheld d hd).regular.availMs (docs d).body 0 none (by simp) (by simp) (hheld d hd).regular.inMs x.lab _
      (by rw [← hlab, mapN])
    rw [hb, he]
    exact this
  have hendms : ∀ w ∈ ws, ∀ e, w.2.2 = some e → e % 1000 = 0 := by
    intro w hw e he
    obtain ⟨r, hr, hwe⟩ := hends w hw
    have hr' := (Seq.C04_resolved_times h w.1 (hwd w hw)).2
    rw [hr] at hr'
    injection hr' with hr'
    have hrms : ∀ y, r = some y → y % 1000 = 0 := by
      intro y hy
      rcases Doc.earliest_cases w.1.cend ((Seq.nextDoc s.docs w.1).map (·.cbegin)) with hc | hc
      · rw [hr', hc] at hy
        exact (hdms w.1 (hwd w hw)).2 y hy
      · rw [hr', hc, Option.map_eq_some_iff] at hy
        obtain ⟨n, hn, rfl⟩ := hy
        unfold Seq.nextDoc at hn
        exact (hdms n (List.mem_of_find?_eq_some hn)).1
    rw [hwe] at he
    unfold Seq.winEnd at he
    cases hhh : hi with
    | none => rw [hhh] at he; exact hrms e he
    | some c =>
      have hc := hhi c hhh
      cases hrr : r with
      | none => rw [hhh, hrr] at he; simp at he; omega
      | some y =>
        have := hrms y hrr
        rw [hhh, hrr] at he
        simp only at he
        split at he <;> simp at he <;> omega
  have hbegms : ∀ w ∈ ws, ∀ b, w.2.1 = some b → b % 1000 = 0 := by
    intro w hw b hb
    rcases Doc.consecutive_begin hcons w hw with hc | ⟨w', hw', hc⟩
    · exact hlo b (by rw [← hc]; exact hb)
    · exact hendms w' hw' b (by rw [← hc]; exact hb)
  -- the segments
  let f : Seq.Doc × Option Int × Option Int → Option HDoc := fun w => ((docs w.1).extract ⟨w.2.1, w.2.2⟩ (some w.1.num)).toOption
  let g : Int → Seq.Doc × Option Int × Option Int → List Piece := fun t w => (f w).elim [] (fun s => piecesOf s t)
  have hlook : ∀ w ∈ ws, ∀ t, (Win.at ⟨w.2.1, w.2.2⟩ t = true → piecesOf (docs w.1) t = []) → g t w = [] := by
    intro w hw t hnil
    show ((docs w.1).extract ⟨w.2.1, w.2.2⟩ (some w.1.num)).toOption.elim [] (fun s => piecesOf s t) = []
    cases hx : (docs w.1).extract ⟨w.2.1, w.2.2⟩ (some w.1.num) with
    | error e => rfl
    | ok s' =>
      have := kept_pieces (hheld w.1 (hwd w hw)) w.1.num (hbegms w hw) (hendms w hw) hx t
      have hz : (if Win.at ⟨w.2.1, w.2.2⟩ t then piecesOf (docs w.1) t else []) = [] := by
        split
        · exact hnil ‹_›
        · rfl
      rw [hz] at this
      show piecesOf s' t = []
      cases hg : piecesOf s' t with
      | nil => rfl
      | cons a l => rw [hg] at this; cases this
  have hseg : ∀ w ∈ ws, ∀ sd, f w = some sd → IsSeg w.1.num sd ∧ sd.head.geo = (docs w.1).head.geo ∧ ∃ r, sd.validate = .ok r := by
    intro w hw sd hsd
    have hh := hheld w.1 (hwd w hw)
    obtain ⟨a, ks, hb, hk⟩ := hh.regular.sane.body
    refine extract_isSeg hh.regular.shaped ⟨a, ks, hb, hk⟩ hh.plainBody (w := ⟨w.2.1, w.2.2⟩) ?_
    show (docs w.1).extract _ _ = .ok sd
    simp only [f] at hsd
    cases hx : (docs w.1).extract ⟨w.2.1, w.2.2⟩ (some w.1.num) with
    | error e => rw [hx] at hsd; cases hsd
    | ok s' => rw [hx] at hsd; cases hsd; rfl
  let nsegs : List (Nat × HDoc) := ws.filterMap (fun w => (f w).map (fun s => (w.1.num, s)))
  have hns : nsegs.map (·.2) = ws.filterMap f := by
    simp only [nsegs]
    rw [List.map_filterMap]
    congr 1
    funext w
    cases f w <;> rfl
  have hnn : (nsegs.map (·.1)).Nodup := by
    have : (nsegs.map (·.1)).Sublist (ws.map (·.1.num)) := by
      simp only [nsegs]
      exact filterMap_fst f (fun w => w.1.num) ws
    exact this.nodup hnums
  have hnseg : ∀ p ∈ nsegs, IsSeg p.1 p.2 ∧ (∃ d ∈ s.docs, p.2.head.geo = (docs d).head.geo) ∧ ∃ r, p.2.validate = .ok r := by
    intro p hp
    simp only [nsegs, List.mem_filterMap, Option.map_eq_some_iff] at hp
    obtain ⟨w, hw, sd, hsd, rfl⟩ := hp
    obtain ⟨h1, h2, h3⟩ := hseg w hw sd hsd
    exact ⟨h1, ⟨w.1, hwd w hw, h2⟩, h3⟩
  have hmain : ∃ out, extractFull s docs lo hi = some out ∧ (∀ o, out = some o → o.validate.isOk = true) ∧
      ∀ t, piecesBy out t = (ws.map (g t)).flatten := by
    have hex : extractFull s docs lo hi = (match spliceH (nsegs.map (·.2)) with
        | none => some none
        | some d => if d.validate.isOk then some (some d) else none) := by
      rw [hns, extractFull, hws]
      rfl
    have hflat : ∀ t, (ws.map (g t)).flatten = ((nsegs.map (·.2)).map (fun s => piecesOf s t)).flatten := by
      intro t
      rw [hns, Doc.filterMap_flatten]
    cases hn : nsegs with
    | nil =>
      refine ⟨none, by rw [hex, hn]; rfl, by simp, ?_⟩
      intro t
      rw [hflat, hn]
      rfl
    | cons p ps =>
      rw [hn] at hnn hnseg
      obtain ⟨p1, ⟨d0, hd0, hpg⟩, _⟩ := hnseg p List.mem_cons_self
      simp only [List.map_cons, List.nodup_cons] at hnn
      have hm := Merged.fold ps [p.1] [] [p.2] p.2 (Merged.one p1) ⟨fun x hx => ⟨p.1, by simp, p1.pre x hx⟩, by simp, p1.nodup⟩
        (by
          intro q hq hm
          rw [List.mem_singleton] at hm
          exact hnn.1 (hm ▸ List.mem_map_of_mem hq)) hnn.2 (fun q hq => (hnseg q (List.mem_cons_of_mem _ hq)).1)
        (by
          intro q hq
          obtain ⟨_, ⟨d1, hd1, hqg⟩, _⟩ := hnseg q (List.mem_cons_of_mem _ hq)
          rw [hqg, hpg]
          exact hgeo d1 hd1 d0 hd0)
      have hsegs : [p.2] ++ ps.map (·.2) = nsegs.map (·.2) := by rw [hn]; rfl
      have hall : ∀ s ∈ [p.2] ++ ps.map (·.2), (∃ r, s.validate = .ok r) ∧ SegBody s.body ∧ (∀ a kids, s.body = .elem a kids → a.style = []) ∧ s.avail = 0 := by
        intro s' hs'
        have : s' ∈ (p :: ps).map (·.2) := hs'
        obtain ⟨q, hq, rfl⟩ := List.mem_map.mp this
        obtain ⟨q1, _, q2⟩ := hnseg q hq
        exact ⟨q2, q1.body, q1.plainBody, q1.avail⟩
      obtain ⟨v1, v2⟩ := merged_pieces hm.1 hm.2 hall
      refine ⟨some ((ps.map (·.2)).foldl mergeH ([], p.2)).2, ?_, ?_, ?_⟩
      · rw [hex, hn]
        show (if _ then _ else _) = _
        rw [if_pos v1]
      · intro o ho
        cases ho
        exact v1
      · intro t
        rw [hflat, ← hsegs]
        exact v2 t
  obtain ⟨out, hout, hval, hshow⟩ := hmain
  have hat : ∀ w ∈ ws, ∀ t, Win.at ⟨w.2.1, w.2.2⟩ t = true ↔ Seq.InWindow w t := by
    intro w hw t
    unfold Win.at Seq.InWindow
    cases w.2.1 <;> cases w.2.2 <;> simp
  have hdisj : ∀ t, ws.Pairwise (fun a b => ¬((Win.at ⟨a.2.1, a.2.2⟩ t = true) ∧ (Win.at ⟨b.2.1, b.2.2⟩ t = true))) := by
    intro t
    refine hpw.imp ?_
    rintro a b ⟨e, c, he, hc, hle⟩ ⟨h1, h2⟩
    simp only [Win.at, he, hc, Bool.and_eq_true, decide_eq_true_eq] at h1 h2
    omega
  have hnot : ∀ t, ∀ w ∈ ws, Win.at ⟨w.2.1, w.2.2⟩ t = false → g t w = [] := by
    intro t w hw hf
    exact hlook w hw t (fun hp => by rw [hf] at hp; cases hp)
  have hnone : ∀ t, (∀ w ∈ ws, g t w = []) → piecesBy out t = [] := by
    intro t ht
    rw [hshow, List.flatten_eq_nil_iff]
    intro l hl
    obtain ⟨w, hw, rfl⟩ := List.mem_map.mp hl
    exact ht w hw
  refine ⟨ws, out, hws, hout, hval, fun w hw => ⟨hwd w hw, hbegms w hw, hendms w hw, hends w hw, (hin w hw).2⟩, hnums, ?_⟩
  intro t
  refine ⟨?_, ?_⟩
  · intro hwt
    have hwt' : (∀ b, lo = some b → b ≤ t) ∧ ∀ e, hi = some e → t < e := by
      unfold Win.at at hwt
      cases lo <;> cases hi <;> simp_all
    constructor
    · intro a ha
      obtain ⟨⟨w, hw, hwa, hwt⟩, _⟩ := hact t a hwt'.1 hwt'.2 ha
      have hwin := (hat w hw t).mpr hwt
      refine ⟨w, hw, hwa, hwin, ?_⟩
      rw [hshow, flatten_unique (fun w => Win.at ⟨w.2.1, w.2.2⟩ t) (g t) ws (hdisj t) (hnot t) w hw hwin]
      rfl
    · intro hno
      refine hnone t (fun w hw => ?_)
      cases hwin : Win.at ⟨w.2.1, w.2.2⟩ t with
      | false => exact hnot t w hw hwin
      | true =>
        have hin' := (hat w hw t).mp hwin
        have hnil : piecesOf (docs w.1) t = [] := by
          apply kept_outside (hheld w.1 (hwd w hw))
          by_cases hb : t < w.1.cbegin
          · exact .inl hb
          · exfalso
            obtain ⟨r, hr, hwe⟩ := hends w hw
            refine hno w.1 ⟨hwd w hw, w.1.cbegin, (Seq.C04_resolved_times h w.1 (hwd w hw)).1, by omega, r, hr, ?_⟩
            intro y hy
            rw [hy] at hwe
            unfold Seq.winEnd at hwe
            split at hwe
            · exact hin'.2 _ hwe
            · simp only at hwe
              split at hwe
              · have := hin'.2 _ hwe; omega
              · exact hin'.2 _ hwe
        exact hlook w hw t (fun _ => hnil)
  · intro hout'
    refine hnone t (fun w hw => hnot t w hw ?_)
    rw [← Bool.not_eq_true]
    intro hp
    have hin' := (hat w hw t).mp hp
    obtain ⟨h1, h2⟩ := hin w hw
    have h1 : ∀ b, lo = some b → b ≤ t := by
      intro b hb
      obtain ⟨b', hb', hle⟩ := h1 b hb
      have := hin'.1 b' hb'
      omega
    have h2 : ∀ e, hi = some e → t < e := by
      intro e he
      obtain ⟨e', he', hle⟩ := h2 e he
      have := hin'.2 e' he'
      omega
    unfold Win.at at hout'
    cases lo <;> cases hi <;> simp_all

/-- **C59** (partial): for every reachable sequence and every window, open or not, resegmentation succeeds: it returns a valid
document, or an empty one. At each instant of the window it shows what the document active at that instant shows: the same
pieces of content in the same order, each in the same computed style except for `multiRowAlign`, and in the region of the same
name except for the prefix with the document's number. It shows nothing where no document is active, and nothing outside the
window.

Missing: the conditions of `Held`, and all held documents must have the same cell resolution and extent. Each is needed:
`C59_false_gap`, `C59_false_body_style`, `C59_false_geometry`.  For a window without an end no held document may last for ever
(`Doc.C28_false_open_end`). -/
theorem C59_resegmented_looks_alike_partial {cfg : Seq.Cfg} {agid : Option String} {s : Seq.State} {log : List Seq.Doc}
    (h : Seq.Reach cfg agid s log) (docs : Seq.Doc → HDoc) (lo hi : Option Int) (top : Int)
    (hlo : ∀ b, lo = some b → b % 1000 = 0) (hhi : ∀ e, hi = some e → e ≤ top ∧ e % 1000 = 0)
    (hlh : ∀ b e, lo = some b → hi = some e → b ≤ e)
    (hopen : hi = none → ∀ d ∈ s.docs, ∃ e, Seq.resolvedEnd s d = some (some e) ∧ e ≤ top)
    (hheld : ∀ d ∈ s.docs, Held (docs d) d top)
    (hgeo : ∀ d ∈ s.docs, ∀ d' ∈ s.docs, (docs d).head.geo = (docs d').head.geo) :
    ∃ out, extractFull s docs lo hi = some out ∧ (∀ o, out = some o → o.validate.isOk = true) ∧
      ∀ t, (Win.at ⟨lo, hi⟩ t = true →
          (∀ a, Seq.ActiveAt s a t → List.Forall₂ (SamePiece (some a.num)) (piecesOf (docs a) t) (piecesBy out t)) ∧
          ((∀ a, ¬ Seq.ActiveAt s a t) → piecesBy out t = [])) ∧
        (Win.at ⟨lo, hi⟩ t = false → piecesBy out t = []) := by
  obtain ⟨ws, out, _, hout, hval, hw, _, hshow⟩ := by_windows h docs lo hi hlo (fun e he => (hhi e he).2) hlh (fun d hd => (hheld d hd).kept) hgeo
  refine ⟨out, hout, hval, fun t => ⟨fun hwt => ⟨?_, ((hshow t).1 hwt).2⟩, (hshow t).2⟩⟩
  intro a ha
  obtain ⟨w, hmem, rfl, hwin, hp⟩ := ((hshow t).1 hwt).1 a ha
  obtain ⟨hd, h1, h2, ⟨r, hr, hwe⟩, hc⟩ := hw w hmem
  have hend : ∃ we, w.2.2 = some we ∧ we ≤ top := by
    cases hhh : hi with
    | none =>
      obtain ⟨e, he, hle⟩ := hopen hhh w.1 hd
      rw [hr] at he
      injection he with he
      rw [hhh, he] at hwe
      exact ⟨e, hwe, hle⟩
    | some c =>
      obtain ⟨we, h3, h4⟩ := hc c hhh
      have := (hhi c hhh).1
      exact ⟨we, h3, by omega⟩
  obtain ⟨we, h3, h4⟩ := hend
  have := window_pieces (hheld w.1 hd) w.1.num h4 h1 (h2 we h3) t
  rw [← h3, if_pos hwin] at this
  rw [hp]
  exact this

/-- **C59** (partial): whatever the documents refer to, what resegmentation makes of a held document is all or nothing. Either the result
looks like that document at every instant of the request at which it is active, or the result shows nothing at any of these instants.
Nothing of it is ever shown elsewhere, or beside another document, or in another style. It holds for requests without an end too, for
documents that last for ever, and for documents without a styling or a layout.

Missing: the documents are `Kept`, so their bodies refer to no style, and all have the same cell resolution and extent. -/
theorem C59_all_or_nothing_partial {cfg : Seq.Cfg} {agid : Option String} {s : Seq.State} {log : List Seq.Doc}
    (h : Seq.Reach cfg agid s log) (docs : Seq.Doc → HDoc) (lo hi : Option Int)
    (hlo : ∀ b, lo = some b → b % 1000 = 0) (hhi : ∀ e, hi = some e → e % 1000 = 0)
    (hlh : ∀ b e, lo = some b → hi = some e → b ≤ e)
    (hheld : ∀ d ∈ s.docs, Kept (docs d) d)
    (hgeo : ∀ d ∈ s.docs, ∀ d' ∈ s.docs, (docs d).head.geo = (docs d').head.geo) :
    ∃ out, extractFull s docs lo hi = some out ∧ (∀ o, out = some o → o.validate.isOk = true) ∧
      (∀ a, (∀ t, Win.at ⟨lo, hi⟩ t = true → Seq.ActiveAt s a t → List.Forall₂ (SamePiece (some a.num)) (piecesOf (docs a) t) (piecesBy out t)) ∨
        (∀ t, Win.at ⟨lo, hi⟩ t = true → Seq.ActiveAt s a t → piecesBy out t = [])) ∧
      ∀ t, (Win.at ⟨lo, hi⟩ t = false ∨ ∀ a, ¬ Seq.ActiveAt s a t) → piecesBy out t = [] := by
  obtain ⟨ws, out, _, hout, hval, hw, hnums, hshow⟩ := by_windows h docs lo hi hlo hhi hlh hheld hgeo
  refine ⟨out, hout, hval, ?_, ?_⟩
  · intro a
    by_cases hx : ∃ w ∈ ws, w.1 = a ∧ ∃ sd, (docs w.1).extract ⟨w.2.1, w.2.2⟩ (some w.1.num) = .ok sd
    · left
      intro t hwt ha
      obtain ⟨w, hmem, rfl, hwin, hp⟩ := ((hshow t).1 hwt).1 a ha
      obtain ⟨w', hmem', hww, sd, hsd⟩ := hx
      have : w' = w := by
        exact eq_of_name (fun w => w.1.num) hnums hmem' hmem (by rw [hww])
      subst this
      obtain ⟨hd, h1, h2, _⟩ := hw w' hmem
      have := kept_pieces (hheld w'.1 hd) w'.1.num h1 h2 hsd t
      rw [if_pos hwin] at this
      rw [hp, windowPieces, hsd]
      exact this
    · right
      intro t hwt ha
      obtain ⟨w, hmem, hwa, hwin, hp⟩ := ((hshow t).1 hwt).1 a ha
      rw [hp, windowPieces]
      cases hsd : (docs w.1).extract ⟨w.2.1, w.2.2⟩ (some w.1.num) with
      | error e => rfl
      | ok sd => exact absurd ⟨w, hmem, hwa, sd, hsd⟩ hx
  · rintro t (ht | ht)
    · exact (hshow t).2 ht
    · cases hwt : Win.at ⟨lo, hi⟩ t with
      | false => exact (hshow t).2 hwt
      | true => exact ((hshow t).1 hwt).2 ht

/-- **C59** (partial): which of the two it is. For a held document that is active at some instant of the request there is a window, the
instants of the request from the end of its predecessor on, or from the begin of the request on, until it is no longer active. The result looks
like the document at every instant of the request at which it is active if whatever is referred to, by an element that overlaps the window
with all it is nested in, is in use in the window; if not, nothing of it is shown at all.

Missing: the documents are `Kept`, so their bodies refer to no style, all have the same cell resolution and extent, a styling and a layout, and
in a request without an end none lasts for ever. -/
theorem C59_exact_partial {cfg : Seq.Cfg} {agid : Option String} {s : Seq.State} {log : List Seq.Doc}
    (h : Seq.Reach cfg agid s log) (docs : Seq.Doc → HDoc) (lo hi : Option Int) (top : Int)
    (hlo : ∀ b, lo = some b → b % 1000 = 0) (hhi : ∀ e, hi = some e → e ≤ top ∧ e % 1000 = 0)
    (hlh : ∀ b e, lo = some b → hi = some e → b ≤ e)
    (hopen : hi = none → ∀ d ∈ s.docs, ∃ e, Seq.resolvedEnd s d = some (some e) ∧ e ≤ top)
    (hheld : ∀ d ∈ s.docs, Kept (docs d) d ∧ (docs d).styling = true ∧ (docs d).layout = true ∧
      ((docs d).base = .media ∨ (docs d).base = .clock ∧ top < 100 * 3600000000))
    (hgeo : ∀ d ∈ s.docs, ∀ d' ∈ s.docs, (docs d).head.geo = (docs d').head.geo) :
    ∃ out, extractFull s docs lo hi = some out ∧
      ∀ a, (∃ t, Win.at ⟨lo, hi⟩ t = true ∧ Seq.ActiveAt s a t) → ∀ infos n, (docs a).validate = .ok (infos, n) →
        ∃ wb we, (∀ t, Win.at ⟨lo, hi⟩ t = true → Seq.ActiveAt s a t → Win.at ⟨wb, some we⟩ t = true) ∧
          (∀ t, Win.at ⟨wb, some we⟩ t = true → Win.at ⟨lo, hi⟩ t = true ∧ (t < a.cbegin ∨ Seq.ActiveAt s a t)) ∧
          (Backed wb we n → ∀ t, Win.at ⟨lo, hi⟩ t = true → Seq.ActiveAt s a t →
            List.Forall₂ (SamePiece (some a.num)) (piecesOf (docs a) t) (piecesBy out t)) ∧
          (¬ Backed wb we n → ∀ t, Win.at ⟨lo, hi⟩ t = true → Seq.ActiveAt s a t → piecesBy out t = []) := by
  obtain ⟨ws, out, hws, hout, hval, hw, hnums, hshow⟩ := by_windows h docs lo hi hlo (fun e he => (hhi e he).2) hlh (fun d hd => (hheld d hd).1) hgeo
  obtain ⟨ws', hws', _, _, hin, _⟩ := Seq.C12_windows h lo hi hlh
  rw [hws] at hws'
  injection hws' with hws'
  subst hws'
  refine ⟨out, hout, ?_⟩
  rintro a ⟨t0, ht0, ha0⟩ infos n hv
  obtain ⟨w, hmem, rfl, hwin0, _⟩ := ((hshow t0).1 ht0).1 a ha0
  obtain ⟨hd, h1, h2, ⟨r, hr, hwe⟩, hc⟩ := hw w hmem
  have hend : ∃ we, w.2.2 = some we ∧ we ≤ top := by
    cases hhh : hi with
    | none =>
      obtain ⟨e, he, hle⟩ := hopen hhh w.1 hd
      rw [hr] at he
      injection he with he
      rw [hhh, he] at hwe
      exact ⟨e, hwe, hle⟩
    | some c =>
      obtain ⟨we, h3, h4⟩ := hc c hhh
      have := (hhi c hhh).1
      exact ⟨we, h3, by omega⟩
  obtain ⟨we, h3, h4⟩ := hend
  have hlt : ∀ b, w.2.1 = some b → b < we := by
    intro b hb
    rw [h3] at hwin0
    simp only [Win.at, hb, Bool.and_eq_true, decide_eq_true_eq] at hwin0
    omega
  have hsame : ∀ t, Win.at ⟨lo, hi⟩ t = true → Seq.ActiveAt s w.1 t → Win.at ⟨w.2.1, w.2.2⟩ t = true ∧ piecesBy out t = windowPieces docs t w := by
    intro t ht ha
    obtain ⟨w', hmem', hww, hwin, hp⟩ := ((hshow t).1 ht).1 w.1 ha
    have : w' = w := eq_of_name (fun w => w.1.num) hnums hmem' hmem (by rw [hww])
    subst this
    exact ⟨hwin, hp⟩
  refine ⟨w.2.1, we, ?_, ?_, ?_, ?_⟩
  · intro t ht ha
    rw [← h3]
    exact (hsame t ht ha).1
  · intro t ht
    obtain ⟨g1, g2⟩ := hin w hmem
    simp only [Win.at, Bool.and_eq_true, decide_eq_true_eq] at ht
    constructor
    · have q1 : ∀ b, lo = some b → b ≤ t := by
        intro b hb
        obtain ⟨b', hb', hle⟩ := g1 b hb
        rw [hb'] at ht
        simp only [decide_eq_true_eq] at ht
        omega
      have q2 : ∀ e, hi = some e → t < e := by
        intro e he
        obtain ⟨e', he', hle⟩ := g2 e he
        rw [h3] at he'
        injection he' with he'
        omega
      unfold Win.at
      cases lo <;> cases hi <;> simp_all
    · by_cases hb : t < w.1.cbegin
      · exact .inl hb
      · right
        refine ⟨hd, w.1.cbegin, (Seq.C04_resolved_times h w.1 hd).1, by omega, r, hr, ?_⟩
        intro y hy
        rw [hy, h3] at hwe
        unfold Seq.winEnd at hwe
        split at hwe
        · injection hwe with hwe; omega
        · simp only at hwe
          split at hwe <;> injection hwe with hwe <;> omega
  · intro hbk t ht ha
    obtain ⟨hwin, hp⟩ := hsame t ht ha
    obtain ⟨hk, hst, hla, hbase⟩ := hheld w.1 hd
    have := backed_pieces hk hst hla w.1.num (wb := w.2.1) (we := we)
      (by
        rcases hbase with hb | ⟨hb, hx⟩
        · exact .inl hb
        · exact .inr ⟨hb, by omega⟩) h1 (h2 we h3)
      (by
        intro infos' n' hv' _ _
        rw [hv] at hv'
        cases hv'
        exact hbk) t
    rw [← h3, if_pos hwin] at this
    rw [hp]
    exact this
  · intro hbk t ht ha
    obtain ⟨_, hp⟩ := hsame t ht ha
    rw [hp, windowPieces]
    cases hsd : (docs w.1).extract ⟨w.2.1, w.2.2⟩ (some w.1.num) with
    | error e => rfl
    | ok sd =>
      exfalso
      obtain ⟨infos', x, kids, hv', _⟩ := (hheld w.1 hd).1.valid
      rw [hv] at hv'
      cases hv'
      rw [h3] at hsd
      exact hbk (backed_of_extract hv hlt hsd).2.2.2

/-! ### Example: the second document replaces the first at 5 s -/

/-- One line in region `r` or `q`. -/
def oneLine (r : String) (st : List Name) (b e : Int) (t : String) : HDoc :=
  docOf (.elem { kind := .body } [.elem { kind := .div } [line (some r.toList) st b e t]])

def exHeld : List Seq.Doc := [Seq.mk 1 1 1000000 (some 9000000), Seq.mk 2 2 5000000 (some 8000000)]

def exState : Seq.State := (Seq.run (Seq.State.init Seq.exCfg none) exHeld).1

theorem exState_reach : Seq.Reach Seq.exCfg none exState exHeld.reverse := by
  have := Seq.reach_run exHeld (Seq.Reach.init (cfg := Seq.exCfg) (agid := none)) (by
    intro d hd
    simp only [exHeld, List.mem_cons, List.not_mem_nil, or_false] at hd
    rcases hd with rfl | rfl <;> exact ⟨by simp [Seq.mk], by intro e he; simp [Seq.mk] at he ⊢; omega⟩)
    (by simp) (by decide) (by decide +kernel)
  simpa [exState] using this

def exDocs (d : Seq.Doc) : HDoc := if d.num = 1 then oneLine "r" [] 1 9 "one" else oneLine "q" ["s".toList] 5 8 "two"

/-- What the returned document shows: the texts with their colour, `multiRowAlign` and region. -/
def lookFull (s : Seq.State) (docs : Seq.Doc → HDoc) (lo hi : Option Int) (t : Int) : Option (List Look) :=
  (extractFull s docs lo hi).map (fun out =>
    (piecesBy out t).map (fun p => ⟨p.content, (p.style.inh .color).1, (p.style.inh .multiRowAlign).1, p.region⟩))

/-- In a document whose divs refer to nothing there are no gaps. -/
theorem noGaps_plain {w : Win} {n : Node Full} (h : (labelsOf n).all (fun y => !decide (y.kind = .div) ||
    (y.att.style.isEmpty && (ownRegion y.att).isNone)) = true) : NoGaps w n := by
  intro anc y ys hr hk _ hne
  exfalso
  have := List.all_eq_true.mp h y ((labels_of_reach hr).2 _ (by simp [labelsOf]))
  rw [hk] at this
  simp only [decide_true, Bool.not_true, Bool.false_or, Bool.and_eq_true, List.isEmpty_iff, Option.isNone_iff_eq_none] at this
  rcases hne with hne | hne
  · exact hne this.1
  · rw [this.2] at hne; simp at hne

/-- There are no gaps either in a document with one div and no div in it, in a window that a p or span is in. -/
theorem noGaps_one {w : Win} {x y : Full} {ys : List (Node Full)} (hx : x.kind = .body) (hd : (labelsOfL ys).all (fun z => !decide (z.kind = .div)) = true)
    (hany : ∃ z ∈ labelsOf (.elem x [.elem y ys]), (z.kind = .p ∨ z.kind = .span) ∧ Doc.Overlaps w z.comp = true) :
    NoGaps w (.elem x [.elem y ys]) := by
  obtain ⟨z, hz, hzk, hzo⟩ := hany
  have hz' : z ∈ labelsOf (.elem y ys) := by
    rw [labelsOf, List.mem_cons] at hz
    rcases hz with rfl | hz
    · rw [hx] at hzk; rcases hzk with h | h <;> cases h
    · simpa [labelsOfL] using hz
  obtain ⟨anc', zs, hr'⟩ := reach_of_label hz'
  intro anc y' ys' hr hk _ _
  have hself : Node.elem y' ys' = .elem y ys := by
    rcases reach_below hr with he | ⟨k, hk0, anc1, _, hr1⟩
    · cases he.2
      rw [hx] at hk; cases hk
    · rw [List.mem_singleton] at hk0
      subst hk0
      rcases reach_below hr1 with he | ⟨k, hk1, anc2, _, hr2⟩
      · exact he.2
      · have := List.all_eq_true.mp hd y' (mem_labelsOfL.mpr ⟨k, hk1, (labels_of_reach hr2).2 y' (by simp [labelsOf])⟩)
        rw [hk] at this
        simp at this
  cases hself
  exact ⟨anc', z, zs, hr', hzk, hzo⟩

/-- Whether there is one div, with no div in it. -/
def oneDiv : Node Full → Bool
  | .elem x [.elem y ys] => decide (x.kind = .body) && (labelsOfL ys).all (fun z => !decide (z.kind = .div))
  | _ => false

/-- **C59.** Two kinds of documents meet the last condition: those whose divs refer to nothing, and those with a single div. -/
theorem safe_of {h : HDoc} (hs : Doc.shaped h.body = true) (hu : Style.unnested h.body = true)
    (hk : ∃ a kids, h.body = .elem a kids ∧ a.kind = .body) {infos : List RInfo} {n : Node Full} (hv : h.validate = .ok (infos, n))
    (hc : oneDiv n = true ∨ (labelsOf n).all (fun y => !decide (y.kind = .div) || (y.att.style.isEmpty && (ownRegion y.att).isNone)) = true) :
    Safe n := by
  intro wb we hlt hany
  refine backed_of_noGaps hv hs hu hk hlt ?_
  rcases hc with hc | hc
  · unfold oneDiv at hc
    split at hc
    · simp only [Bool.and_eq_true, decide_eq_true_eq] at hc
      exact noGaps_one hc.1 hc.2 hany
    · cases hc
  · exact noGaps_plain hc

/-- A way to check the last condition of `Held`. -/
def heldCheck (h : HDoc) (d : Seq.Doc) : Bool :=
  match h.validate with
  | .ok (_, .elem x kids) => decide (d.cbegin = x.comp.b) && decide (d.cend = x.comp.e) &&
      (oneDiv (.elem x kids) ||
        (labelsOf (.elem x kids)).all (fun y => !decide (y.kind = .div) || (y.att.style.isEmpty && (ownRegion y.att).isNone)))
  | _ => false

theorem heldCheck_sound {h : HDoc} {d : Seq.Doc} (hr : Regular h) (hc : heldCheck h d = true) :
    ∃ infos x kids, h.validate = .ok (infos, .elem x kids) ∧ d.cbegin = x.comp.b ∧ d.cend = x.comp.e ∧ Safe (.elem x kids) := by
  unfold heldCheck at hc
  split at hc
  · rename_i infos x kids hv
    simp only [Bool.and_eq_true, Bool.or_eq_true, decide_eq_true_eq] at hc
    exact ⟨infos, x, kids, hv, hc.1.1, hc.1.2, safe_of hr.shaped hr.unnested hr.sane.body hv hc.2⟩
  · cases hc

example : Seq.Reach Seq.exCfg none exState exHeld.reverse ∧ exState.docs = exHeld ∧ (∀ d ∈ exHeld, Held (exDocs d) d 12000000) ∧
    (∀ d ∈ exHeld, ∀ d' ∈ exHeld, (exDocs d).head.geo = (exDocs d').head.geo) ∧
    [1999999, 2000000, 4999999, 5000000, 8000000].map (lookFull exState exDocs (some 2000000) (some 12000000)) =
      [some [], some [⟨[.text "one".toList], some "red".toList, some "auto".toList, some "SEQ1.r".toList⟩],
        some [⟨[.text "one".toList], some "red".toList, some "auto".toList, some "SEQ1.r".toList⟩],
        some [⟨[.text "two".toList], some "red".toList, some "auto".toList, some "SEQ2.q".toList⟩], some []] := by
  refine ⟨exState_reach, by decide +kernel, ?_, ?_, by decide +kernel⟩
  · intro d hd
    simp only [exHeld, List.mem_cons, List.not_mem_nil, or_false] at hd
    have hreg : Regular (exDocs d) := by
      rcases hd with rfl | rfl <;>
      exact ⟨Time.exactReader_accurate, by decide, by decide, by decide, Doc.sane_of rfl (by decide) (by decide), by decide, by decide,
        by decide +kernel, by decide, by decide⟩
    rcases hd with rfl | rfl
    · exact ⟨hreg, by decide, by decide, .inl (by decide), by rintro a kids he; cases he; rfl, heldCheck_sound hreg (by decide +kernel)⟩
    · exact ⟨hreg, by decide, by decide, .inl (by decide), by rintro a kids he; cases he; rfl, heldCheck_sound hreg (by decide +kernel)⟩
  · intro d hd d' hd'
    simp only [exHeld, List.mem_cons, List.not_mem_nil, or_false] at hd hd'
    rcases hd with rfl | rfl <;> rcases hd' with rfl | rfl <;> rfl

/-- The same sequence with an open window. -/
example : (∀ d ∈ exHeld, ∃ e, Seq.resolvedEnd exState d = some (some e) ∧ e ≤ 12000000) ∧
    [999999, 1000000, 4999999, 5000000, 8000000].map (lookFull exState exDocs none none) =
      [some [], some [⟨[.text "one".toList], some "red".toList, some "auto".toList, some "SEQ1.r".toList⟩],
        some [⟨[.text "one".toList], some "red".toList, some "auto".toList, some "SEQ1.r".toList⟩],
        some [⟨[.text "two".toList], some "red".toList, some "auto".toList, some "SEQ2.q".toList⟩], some []] := by
  refine ⟨?_, by decide +kernel⟩
  intro d hd
  simp only [exHeld, List.mem_cons, List.not_mem_nil, or_false] at hd
  rcases hd with rfl | rfl
  · exact ⟨5000000, by decide +kernel, by omega⟩
  · exact ⟨8000000, by decide +kernel, by omega⟩

/-- One document with one div, with a style and a region, and a pause from 4 s to 7 s. -/
def exPause : HDoc := docOf (.elem { kind := .body } [.elem { kind := .div, style := ["s".toList], region := some "q".toList }
  [line none [] 1 4 "a", line none [] 7 9 "b"]])

/-- It meets the conditions, although its segment for the pause cannot be extracted. -/
example : Held exPause (Seq.mk 1 1 1000000 (some 9000000)) 12000000 ∧
    (exPause.extract ⟨some 4500000, some 6500000⟩ (some 1)).isOk = false ∧ piecesOf exPause 5000000 = [] := by
  have hreg : Regular exPause :=
    ⟨Time.exactReader_accurate, by decide, by decide, by decide, Doc.sane_of rfl (by decide) (by decide), by decide, by decide,
      by decide +kernel, by decide, by decide⟩
  refine ⟨⟨hreg, by decide, by decide, .inl (by decide), by rintro a kids he; cases he; rfl, heldCheck_sound hreg (by decide +kernel)⟩,
    by decide +kernel, ?_⟩
  have : (piecesOf exPause 5000000).isEmpty = true := by decide +kernel
  exact List.isEmpty_iff.mp this

/-! ### Counterexamples -/

/-- The body of both documents of the example refers to a style. -/
def exStyled (d : Seq.Doc) : HDoc :=
  docOf (.elem { kind := .body, style := [(if d.num = 1 then "s" else "t").toList] } [.elem { kind := .div } [
    if d.num = 1 then line none [] 1 9 "one" else line none [] 5 8 "two"]])

/-- The second document with another cell resolution, and a font size in pixels. -/
def exCells (d : Seq.Doc) : HDoc :=
  { exDocs d with head := { Style.exHead with own := fun _ => { fs := some (.px ⟨none, 40⟩) }, geo := if d.num = 1 then ⟨2, 2⟩ else ⟨1, 1⟩ } }

/-- The first document has a gap from 4 s to 6 s in a div with a style. -/
def exGaps (d : Seq.Doc) : HDoc := if d.num = 1 then docOf (.elem { kind := .body } [.elem { kind := .div } [line none [] 1 9 "one"],
  .elem { kind := .div, style := ["s".toList] } [line none [] 1 4 "a", line none [] 7 9 "b"]]) else oneLine "q" ["s".toList] 5 8 "two"

def exFirst : Seq.Doc := Seq.mk 1 1 1000000 (some 9000000)
def exSecond : Seq.Doc := Seq.mk 2 2 5000000 (some 8000000)

theorem exFirst_active : Seq.ActiveAt exState exFirst 4500000 :=
  ⟨by decide +kernel, 1000000, by decide +kernel, by decide, some 5000000, by decide +kernel, by intro y hy; cases hy; decide⟩

theorem exSecond_active : Seq.ActiveAt exState exSecond 6000000 :=
  ⟨by decide +kernel, 5000000, by decide +kernel, by decide, some 8000000, by decide +kernel, by intro y hy; cases hy; decide⟩

/-- **C59** is false if a document has a gap in a div that refers to a style: the extraction of its segment fails, the failure
is only logged, and what other divs show is missing from the returned document. -/
theorem C59_false_gap : ∃ docs : Seq.Doc → HDoc, Seq.ActiveAt exState exFirst 4500000 ∧
    (look (docs exFirst).validate 4500000).map (·.map (·.content)) = some [[.text "one".toList]] ∧
    lookFull exState docs (some 4000000) (some 5000000) 4500000 = some [] :=
  ⟨exGaps, exFirst_active, by decide +kernel, by decide +kernel⟩

/-- A way to check the last condition of `Kept`. -/
def keptCheck (h : HDoc) (d : Seq.Doc) : Bool :=
  match h.validate with
  | .ok (_, .elem x _) => decide (d.cbegin = x.comp.b) && decide (d.cend = x.comp.e)
  | _ => false

theorem keptCheck_sound {h : HDoc} {d : Seq.Doc} (hc : keptCheck h d = true) :
    ∃ infos x kids, h.validate = .ok (infos, .elem x kids) ∧ d.cbegin = x.comp.b ∧ d.cend = x.comp.e := by
  unfold keptCheck at hc
  split at hc
  · rename_i infos x kids hv
    simp only [Bool.and_eq_true, decide_eq_true_eq] at hc
    exact ⟨infos, x, kids, hv, hc.1, hc.2⟩
  · cases hc

/-- Both alternatives of `C59_all_or_nothing_partial`, with the gap: asked for from 4 s on, all of the first document is lost and
the second one is there. Asked for from 2 s on nothing is lost. -/
example : (∀ d ∈ exHeld, Kept (exGaps d) d) ∧ (∀ d ∈ exHeld, ∀ d' ∈ exHeld, (exGaps d).head.geo = (exGaps d').head.geo) ∧
    (look (exGaps exFirst).validate 4500000).map (·.map (·.content)) = some [[.text "one".toList]] ∧
    ([4500000, 6000000].map (lookFull exState exGaps (some 4000000) none)).map (·.map (·.map (·.content))) = [some [], some [[.text "two".toList]]] ∧
    ([3000000, 4500000, 6000000].map (lookFull exState exGaps (some 2000000) none)).map (·.map (·.map (·.content))) =
      [some [[.text "one".toList], [.text "a".toList]], some [[.text "one".toList]], some [[.text "two".toList]]] := by
  refine ⟨?_, ?_, by decide +kernel, by decide +kernel, by decide +kernel⟩
  · intro d hd
    simp only [exHeld, List.mem_cons, List.not_mem_nil, or_false] at hd
    have hreg : Regular (exGaps d) := by
      rcases hd with rfl | rfl <;>
        exact ⟨Time.exactReader_accurate, by decide, by decide, by decide, Doc.sane_of rfl (by decide) (by decide), by decide, by decide,
        by decide +kernel, by decide, by decide⟩
    rcases hd with rfl | rfl
    · exact ⟨hreg, by rintro a kids he; cases he; rfl, keptCheck_sound (by decide +kernel)⟩
    · exact ⟨hreg, by rintro a kids he; cases he; rfl, keptCheck_sound (by decide +kernel)⟩
  · intro d hd d' hd'
    simp only [exHeld, List.mem_cons, List.not_mem_nil, or_false] at hd hd'
    rcases hd with rfl | rfl <;> rcases hd' with rfl | rfl <;> rfl

/-- The other hypotheses of `C59_exact_partial` for the same documents and requests, up to 12 s or without an end. -/
example : (∀ d ∈ exHeld, (exGaps d).styling = true ∧ (exGaps d).layout = true ∧ (exGaps d).base = .media) ∧
    (∀ d ∈ exHeld, ∃ e, Seq.resolvedEnd exState d = some (some e) ∧ e ≤ 12000000) ∧
    (Win.at ⟨some 4000000, none⟩ 4500000 = true ∧ Seq.ActiveAt exState exFirst 4500000) ∧
    (Win.at ⟨some 2000000, none⟩ 4500000 = true ∧ (exGaps exFirst).validate.isOk = true) := by
  refine ⟨?_, ?_, ⟨by decide, exFirst_active⟩, by decide, by decide +kernel⟩
  · intro d hd
    simp only [exHeld, List.mem_cons, List.not_mem_nil, or_false] at hd
    rcases hd with rfl | rfl <;> exact ⟨rfl, rfl, rfl⟩
  · intro d hd
    simp only [exHeld, List.mem_cons, List.not_mem_nil, or_false] at hd
    rcases hd with rfl | rfl
    · exact ⟨5000000, by decide +kernel, by omega⟩
    · exact ⟨8000000, by decide +kernel, by omega⟩

/-- **C59** is false if bodies refer to styles: the returned document has only the first document's body element, and the
content of the second document loses the colour that its body gave it. -/
theorem C59_false_body_style : ∃ docs : Seq.Doc → HDoc, Seq.ActiveAt exState exSecond 6000000 ∧
    (look (docs exSecond).validate 6000000).map (·.map (·.color)) = some [some "blue".toList] ∧
    (lookFull exState docs (some 2000000) (some 12000000) 6000000).map (·.map (·.color)) = some [some "red".toList] :=
  ⟨exStyled, exSecond_active, by decide +kernel, by decide +kernel⟩

/-- **C59** is false if documents differ in cell resolution or extent: the returned document has those of the first, and the
second document's sizes in pixels change. -/
theorem C59_false_geometry : ∃ docs : Seq.Doc → HDoc, Seq.ActiveAt exState exSecond 6000000 ∧
    (piecesOf (docs exSecond) 6000000).map (·.style.fs) = [some (.cell ⟨none, 40⟩)] ∧
    (extractFull exState docs (some 2000000) (some 12000000)).map (fun out => (piecesBy out 6000000).map (·.style.fs)) =
      some [some (.cell ⟨none, 80⟩)] :=
  ⟨exCells, exSecond_active, by decide +kernel, by decide +kernel⟩

end Verif.SegHead
