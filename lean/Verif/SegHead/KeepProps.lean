import Verif.SegHead.Keep

/-!
# Segments keep how text is shown (C56)
-/
namespace Verif.SegHead

open Verif.Doc (Node Att Kind Lab Comp Win Env SErr TErr Reach bind_ok Item Leaf Visible items leaves leavesL Overlaps Cov isSpan cutBegin cutEnd
  Sane shaped unmixed wellTimed inMs)
open Verif.Time (toMs)
open Verif.Style (Head PLab RInfo RegionDef PErr Name Computed IAttr unnested)

/-! ### Specification -/

/-- A piece of shown content with the style it has and the region it is shown in. -/
structure Piece where
  content : List Item
  style : Computed
  region : Option Name

/-- What a validated document shows at time `t`, and how. -/
def piecesAt (n : Node Full) (t : Int) : List Piece :=
  ((leaves Full.kind n).filter (fun l => l.1.comp.at t)).map (fun l => ⟨l.2, l.1.pres.comp, l.1.pres.region.map (·.id)⟩)

/-- The same content in the same style but for `multiRowAlign`, in the region of the same name but for the prefix. -/
def SamePiece (pre : Option Nat) (a b : Piece) : Prop :=
  b.content = a.content ∧ SameStyle a.style b.style ∧ b.region = a.region.map (newName pre)

/-! ### Lemmas -/

theorem leaves_mapN_aux {α β : Type} (f : α → β) (kd : β → Kind) (ks : List (Node α)) :
    (mapNL f ks).any (isSpan kd) = ks.any (isSpan (fun x => kd (f x))) := by
  induction ks with
  | nil => rfl
  | cons k ks ih => cases k <;> simp [mapNL, mapN, isSpan, ih]

mutual
theorem leaves_mapN {α β : Type} (f : α → β) (kd : β → Kind) : ∀ n : Node α,
    leaves kd (mapN f n) = (leaves (fun x => kd (f x)) n).map (fun l => (f l.1, l.2))
  | .text s => rfl
  | .br => rfl
  | .elem x kids => by
    rw [mapN, leaves, leaves]
    have : Leaf kd (f x) (mapNL f kids) = Leaf (fun x => kd (f x)) x kids := by simp only [Leaf, leaves_mapN_aux]
    rw [this, items_mapNL]
    split
    · split <;> rfl
    · exact leavesL_mapN f kd kids
theorem leavesL_mapN {α β : Type} (f : α → β) (kd : β → Kind) : ∀ ks : List (Node α),
    leavesL kd (mapNL f ks) = (leavesL (fun x => kd (f x)) ks).map (fun l => (f l.1, l.2))
  | [] => rfl
  | k :: ks => by rw [mapNL, leavesL, leavesL, List.map_append, leaves_mapN f kd k, leavesL_mapN f kd ks]
end

theorem leavesOf_mapN (n : Node Full) : Doc.leavesOf (mapN Full.lab n) = (leaves Full.kind n).map (fun l => (l.1.lab, l.2)) :=
  leaves_mapN Full.lab _ n

theorem forall₂_and {α β : Type} {R S : α → β → Prop} {l : List α} {m : List β} (h1 : List.Forall₂ R l m) (h2 : List.Forall₂ S l m) :
    List.Forall₂ (fun a b => R a b ∧ S a b) l m := by
  induction h1 with
  | nil => exact .nil
  | cons h _ ih => cases h2 with | cons h' h2 => exact .cons ⟨h, h'⟩ (ih h2)

theorem forall₂_imp {α β : Type} {R S : α → β → Prop} (hi : ∀ a b, R a b → S a b) {l : List α} {m : List β} (h : List.Forall₂ R l m) :
    List.Forall₂ S l m := by
  induction h with
  | nil => exact .nil
  | cons h _ ih => exact .cons (hi _ _ h) ih

theorem forall₂_unmap {α β γ δ : Type} {R : γ → δ → Prop} {f : α → γ} {g : β → δ} : ∀ {l : List α} {m : List β},
    List.Forall₂ R (l.map f) (m.map g) → List.Forall₂ (fun a b => R (f a) (g b)) l m
  | [], [], _ => .nil
  | a :: l, b :: m, h => by
    rw [List.map_cons, List.map_cons] at h
    cases h with | cons h1 h2 => exact .cons h1 (forall₂_unmap h2)
  | [], b :: m, h => by cases h
  | a :: l, [], h => by cases h

/-- The times of the leaves of a segment that is validated on its own. -/
theorem leaf_times (v : Env) (hrd : v.rd.Accurate) (hbase : v.base ≠ .smpte) (avail : Int)
    (ha : 0 ≤ avail) (root : Node Att) (hs : Sane root) (hsh : shaped root = true) (hmix : unmixed root = true)
    (hw : wellTimed root = true) (hms : inMs root = true) (hams : avail % 1000 = 0)
    (hwms : ∀ t, v.win.b = some t ∨ v.win.e = some t → t % 1000 = 0) (seg : Node Att)
    (hseg : Doc.segment v (Doc.times avail 0 none root) = .ok seg) :
    List.Forall₂ (fun (l t : Lab × List Item) => t.1.comp = ⟨cutBegin v.win l.1.comp, cutEnd v.win l.1.comp⟩)
      ((Doc.leavesOf (Doc.times avail 0 none root)).filter (fun l => Overlaps v.win l.1.comp)) (Doc.leavesOf (Doc.times 0 0 none seg)) := by
  have hC23 := Doc.C23_segment_leaves_partial v hrd hbase avail ha root hs hsh hmix hw _ (Doc.validateDoc_eq _ _) seg hseg
  have herase : Doc.erase (Doc.times avail 0 none root) = root := by
    obtain ⟨v', hv', he, _⟩ := Doc.C14_computed_times_partial avail root hs
    rw [Doc.validateDoc_eq] at hv'
    injection hv' with hv'
    rw [hv']; exact he
  have hleaves : Doc.leavesOf (Doc.times 0 0 none seg) =
      (Doc.leavesAtt seg).map (fun l => (⟨l.1, Doc.compOf 0 0 none l.1 []⟩, l.2)) := by
    obtain ⟨a0, ks0, hroot, hbody⟩ := hs.body
    have hx : ∃ x kids, Doc.times avail 0 none root = .elem x kids ∧ x.att.kind = .body := by
      rw [hroot]; exact ⟨_, _, rfl, hbody⟩
    obtain ⟨x, kids, hx, hxk⟩ := hx
    rw [hx] at hseg herase
    obtain ⟨h1, ⟨a, rfl, hk⟩ | h2⟩ := Doc.segment_tidy hxk (by rw [herase]; exact hsh) hseg
    · simp [Doc.times, Doc.timesL, Doc.leavesOf, Doc.leavesAtt, leaves, leavesL, Leaf, hk]
    · exact Doc.times_leaves seg h1 h2
  have hmem : ∀ l ∈ (Doc.leavesOf (Doc.times avail 0 none root)).filter (fun l => Overlaps v.win l.1.comp),
      0 ≤ l.1.comp.b ∧ (∀ m, l.1.comp.e = some m → 0 < m) ∧ Overlaps v.win l.1.comp = true ∧
      l.1.comp.b % 1000 = 0 ∧ (∀ m, l.1.comp.e = some m → m % 1000 = 0) ∧ (l.1.att.kind = .p ∨ l.1.att.kind = .span) := by
    intro l hl
    rw [List.mem_filter] at hl
    obtain ⟨h1, h2, h3⟩ := Doc.leaf_facts ha hs hsh hw hl.1
    obtain ⟨h4, h5⟩ := h3 hms hams
    obtain ⟨_, _, _, hleaf, _⟩ := Doc.mem_leaves _ l hl.1
    simp only [Leaf, Bool.and_eq_true, Bool.or_eq_true, decide_eq_true_eq] at hleaf
    exact ⟨h1, h2, hl.2, h4, h5, hleaf.1⟩
  rw [hleaves]
  generalize (Doc.leavesOf (Doc.times avail 0 none root)).filter (fun l => Overlaps v.win l.1.comp) = A at hC23 hmem
  generalize Doc.leavesAtt seg = B at hC23
  induction hC23 with
  | nil => exact .nil
  | @cons l s A B hcut _ ih =>
    rw [List.map_cons]
    refine .cons ?_ (ih (fun l' h' => hmem l' (List.mem_cons_of_mem _ h')))
    obtain ⟨h1, h2, h3, h4, h5, h6⟩ := hmem l List.mem_cons_self
    obtain ⟨hc, hk, _, b, e, te, hsb, hse, hte, hb1, he1, _, _⟩ := hcut
    have hmsb : toMs (cutBegin v.win l.1.comp) = cutBegin v.win l.1.comp := by
      unfold toMs cutBegin
      cases hwb : v.win.b with
      | none => simp only; omega
      | some wb => have := hwms wb (.inl hwb); simp only; omega
    have htepos : 0 < te ∧ te % 1000 = 0 := by
      unfold cutEnd at hte
      unfold Overlaps at h3
      cases hwe : v.win.e with
      | none => rw [hwe] at hte; exact ⟨h2 te hte, h5 te hte⟩
      | some we =>
        have hwem := hwms we (.inr hwe)
        rw [hwe] at hte h3
        simp only [Bool.and_eq_true, decide_eq_true_eq] at h3
        cases hce : l.1.comp.e with
        | none => rw [hce] at hte; simp at hte; omega
        | some m =>
          have := h2 m hce
          have := h5 m hce
          rw [hce] at hte
          simp at hte
          omega
    have hmse : toMs te = te := by unfold toMs; omega
    rw [hmsb] at hb1
    rw [hmse] at he1
    have hown : Doc.ownEnd 0 0 none s.1 = some te := by
      unfold Doc.ownEnd Doc.preEnd Doc.baseEnd
      rw [hse]
      have : Doc.eff (some e) = some te := by simp only [Doc.eff, he1]; rw [if_neg (by omega)]
      rw [this]
      rw [hk]
      rcases h6 with h6 | h6 <;> rw [h6] <;> simp
    have hnb : ¬ (s.1.kind = .body) := by rw [hk]; rcases h6 with h6 | h6 <;> rw [h6] <;> simp
    show Doc.compOf 0 0 none s.1 [] = _
    rw [hte]
    unfold Doc.compOf
    rw [hown, hsb]
    simp only [Doc.postBegin, ite_self, hnb, false_and, if_false]
    simp only [Doc.eff, hb1]
    by_cases hz : cutBegin v.win l.1.comp = 0
    · simp [hz]
    · simp [hz]

/-! ### C56 -/

/-- Conditions on a document under which segments keep everything. -/
structure Regular (d : HDoc) : Prop where
  rd : d.rd.Accurate
  base : d.base ≠ .smpte
  avail : 0 ≤ d.avail
  availMs : d.avail % 1000 = 0
  sane : Sane d.body
  shaped : shaped d.body = true
  unmixed : unmixed d.body = true
  wellTimed : wellTimed d.body = true
  inMs : inMs d.body = true
  unnested : unnested d.body = true

/-- **C56** (partial), element by element: the shown leaves of a segment, validated on its own, are those leaves of the
document that overlap the window, in the same order: each with the same content, in the same computed style except for
`multiRowAlign`, in the region of the same name except for the prefix, and with its times cut to the window. -/
theorem C56_leaves_partial (d : HDoc) (hd : Regular d) (infos : List RInfo) (n : Node Full) (hv : d.validate = .ok (infos, n))
    (w : Win) (hwms : ∀ t, w.b = some t ∨ w.e = some t → t % 1000 = 0)
    (pre : Option Nat) (s : HDoc) (hs : d.extract w pre = .ok s) (infos' : List RInfo) (m : Node Full) (hv' : s.validate = .ok (infos', m)) :
    List.Forall₂ (fun l t => t.2 = l.2 ∧ SameStyle l.1.pres.comp t.1.pres.comp ∧
        t.1.pres.region.map (·.id) = (l.1.pres.region.map (·.id)).map (newName pre) ∧
        t.1.comp = ⟨cutBegin w l.1.comp, cutEnd w l.1.comp⟩)
      ((leaves Full.kind n).filter (fun l => Overlaps w l.1.comp)) (leaves Full.kind m) := by
  obtain ⟨infos0, n0, hv0, hs⟩ := extract_ok hs
  rw [hv] at hv0
  cases hv0
  obtain ⟨a0, kids0, hb0, hk0⟩ := hd.sane.body
  have hb : ∃ a kids, d.body = .elem a kids := ⟨a0, kids0, hb0⟩
  obtain ⟨c, hc, hcop⟩ := seg_body hv hb hs
  have hlab := (validate_ok hv).2.2.1
  have hatt := (validate_ok hv).2.2.2.2
  have hlab' := (validate_ok hv').2.2.1
  have hatt' := (validate_ok hv').2.2.2.2
  have hbody := (segmentOf_ok hs).2.2.2.2.1
  rw [hlab] at hbody
  rw [(segmentOf_ok hs).2.2.2.2.2.1] at hlab'
  have hcov : Cov (mapN Full.lab n) := by rw [hlab]; exact Doc.cov_times hd.sane hd.wellTimed
  have hcl := cut_leaves (w := w) n (by rw [hatt]; exact hd.shaped) (by rw [hatt]; exact hd.unmixed) hcov
  rw [hc] at hcl
  simp only [Option.toList, leavesL, List.append_nil] at hcl
  have hun' : unnested s.body = true := by
    have := (cut_noRegions (w := w) n).2 (by rw [hatt]; exact hd.unnested)
    rw [hc] at this
    simp only [Option.toList, mapNL, Style.unnestedL, Bool.and_true] at this
    exact (copied_unnested hcop).2 this
  have hsh' : shaped s.body = true := by
    have herase : Doc.erase (Doc.times d.avail 0 none d.body) = d.body := by
      rw [← hlab, erase_mapN, hatt]
    rw [hb0] at hbody herase
    refine (Doc.segment_tidy (x := ⟨a0, _⟩) ?_ ?_ hbody).1
    · exact hk0
    · have := hd.shaped
      rw [hb0] at this
      rw [← herase] at this
      exact this
  have htree := same_tree hv hs hv' hd.shaped hd.unnested hsh' hun' hc c m [] [] .here .here (by rw [hatt']; exact hcop) .nil
  have h1 := sameTree_leaves htree
  rw [hcl] at h1
  have h2 := leaf_times (segEnv d w pre n) hd.rd hd.base d.avail hd.avail d.body hd.sane hd.shaped hd.unmixed hd.wellTimed hd.inMs
    hd.availMs hwms s.body hbody
  rw [← hlab, ← hlab', leavesOf_mapN, leavesOf_mapN, List.filter_map] at h2
  have h3 := forall₂_unmap h2
  have h4 := forall₂_and h1 h3
  exact forall₂_imp (fun l t h => ⟨h.1.1, h.1.2.1, h.1.2.2, h.2⟩) h4

/-- **C56** (partial): at every instant of the window a segment, validated on its own, shows what the document shows: the same
pieces of content in the same order, each in the same computed style except for `multiRowAlign` and in the same region. At
other instants it shows nothing.

Missing: `multiRowAlign` is lost (`C56_false_multiRowAlign`); with nested region attributes text may move to another region
(`C56_false_nested_regions`). The other conditions are those of C24. -/
theorem C56_segment_shows_the_same_partial (d : HDoc) (hd : Regular d) (infos : List RInfo) (n : Node Full)
    (hv : d.validate = .ok (infos, n)) (w : Win)
    (hwms : ∀ t, w.b = some t ∨ w.e = some t → t % 1000 = 0) (pre : Option Nat) (s : HDoc) (hs : d.extract w pre = .ok s)
    (infos' : List RInfo) (m : Node Full) (hv' : s.validate = .ok (infos', m)) (t : Int) :
    List.Forall₂ (SamePiece pre) (if w.at t then piecesAt n t else []) (piecesAt m t) := by
  have hmain := C56_leaves_partial d hd infos n hv w hwms pre s hs infos' m hv'
  have hfilter : List.Forall₂ (SamePiece pre)
      ((((leaves Full.kind n).filter (fun l => Overlaps w l.1.comp)).filter (fun l => w.at t && l.1.comp.at t)).map
        (fun l => (⟨l.2, l.1.pres.comp, l.1.pres.region.map (·.id)⟩ : Piece))) (piecesAt m t) := by
    unfold piecesAt
    generalize (leaves Full.kind n).filter (fun l => Overlaps w l.1.comp) = A at hmain
    generalize leaves Full.kind m = B at hmain
    induction hmain with
    | nil => exact .nil
    | @cons l q A B h _ ih =>
      have hat : (w.at t && l.1.comp.at t) = q.1.comp.at t := by
        rw [h.2.2.2]
        unfold Win.at Comp.at cutBegin cutEnd
        cases hwb : w.b <;> cases hwe : w.e <;> cases hce : l.1.comp.e <;> simp only [Bool.true_and, Bool.and_true] <;>
          rw [Bool.eq_iff_iff] <;> simp only [Bool.and_eq_true, decide_eq_true_eq] <;> omega
      by_cases hq : q.1.comp.at t = true
      · rw [List.filter_cons_of_pos (by rw [hat]; exact hq), List.filter_cons_of_pos (p := fun l : Full × List Item => l.1.comp.at t) hq, List.map_cons, List.map_cons]
        exact .cons ⟨h.1, h.2.1, h.2.2.1⟩ ih
      · rw [List.filter_cons_of_neg (by rw [hat]; exact hq), List.filter_cons_of_neg (p := fun l : Full × List Item => l.1.comp.at t) hq]
        exact ih
  rw [List.filter_filter] at hfilter
  by_cases hin : w.at t = true
  · rw [if_pos hin]
    unfold piecesAt at hfilter ⊢
    have : (leaves Full.kind n).filter (fun l => l.1.comp.at t) =
        (leaves Full.kind n).filter (fun l => (w.at t && l.1.comp.at t) && Overlaps w l.1.comp) := by
      apply List.filter_congr
      intro l _
      rw [hin, Bool.true_and]
      by_cases hat : l.1.comp.at t = true
      · rw [hat, Bool.true_and]
        unfold Overlaps
        unfold Win.at at hin
        unfold Comp.at at hat
        cases hwb : w.b <;> cases hwe : w.e <;> cases hce : l.1.comp.e <;> simp_all <;> omega
      · simp [hat]
    rw [this]
    exact hfilter
  · rw [if_neg hin]
    have hnone : ∀ A : List (Full × List Item), A.filter (fun l => (w.at t && l.1.comp.at t) && Overlaps w l.1.comp) = [] := by
      intro A
      rw [List.filter_eq_nil_iff]
      intro l _
      simp [hin]
    rw [hnone] at hfilter
    exact hfilter

/-! ### Examples and counterexamples -/

theorem exBody_regular : Regular (docOf exBody) where
  rd := Time.exactReader_accurate
  base := by decide
  avail := by decide
  availMs := by decide
  sane := Doc.sane_of rfl (by decide) (by decide)
  shaped := by decide
  unmixed := by decide
  wellTimed := by decide +kernel
  inMs := by decide
  unnested := by decide

/-- A text with its colour, `multiRowAlign` and region. -/
structure Look where
  content : List Item
  color : Option Style.Val
  multiRowAlign : Option Style.Val
  region : Option Name
deriving DecidableEq

/-- What is shown at an instant: the texts with their colour, `multiRowAlign` and region. -/
def look (r : Except VErr (List RInfo × Node Full)) (t : Int) : Option (List Look) :=
  r.toOption.map (fun r => (piecesAt r.2 t).map (fun p => ⟨p.content, (p.style.inh .color).1, (p.style.inh .multiRowAlign).1, p.region⟩))

/-- The same of a segment. -/
def lookAt (d : HDoc) (w : Win) (pre : Option Nat) (t : Int) :
    Option (List Look) :=
  (d.extract w pre).toOption.bind (fun s => look s.validate t)

example : look (docOf exBody).validate 6000000 = some [⟨[.text "b".toList], some "red".toList, some "auto".toList, some "q".toList⟩] ∧
    lookAt (docOf exBody) ⟨some 2000000, some 7000000⟩ (some 3) 6000000 =
      some [⟨[.text "b".toList], some "red".toList, some "auto".toList, some "SEQ3.q".toList⟩] ∧
    lookAt (docOf exBody) ⟨some 2000000, some 7000000⟩ (some 3) 7500000 = some [] := by
  decide +kernel

/-- Styles that set `multiRowAlign`. -/
def exAlign : HDoc := { docOf exBody with head := { Style.exHead with
  own := fun _ => { inh := fun x => if x = .multiRowAlign then some "end".toList else none } } }

/-- **C56** is false of `multiRowAlign`: the value is lost. -/
theorem C56_false_multiRowAlign : ∃ d, Regular d ∧
    look d.validate 3000000 = some [⟨[.text "a".toList], none, some "end".toList, some "r".toList⟩] ∧
    lookAt d ⟨some 1000000, some 4000000⟩ none 3000000 = some [⟨[.text "a".toList], none, some "auto".toList, some "r".toList⟩] :=
  ⟨exAlign, ⟨exBody_regular.rd, exBody_regular.base, exBody_regular.avail, exBody_regular.availMs, exBody_regular.sane,
    exBody_regular.shaped, exBody_regular.unmixed, exBody_regular.wellTimed, exBody_regular.inMs, exBody_regular.unnested⟩,
    by decide +kernel, by decide +kernel⟩

/-- A region within a region. -/
def exNested : Node Att := .elem { kind := .body } [.elem { kind := .div, region := some "r".toList }
  [line none [] 1 4 "a", line (some "q".toList) [] 4 6 "b", line none [] 2 9 "c"]]

/-- **C56** is false with a region within a region: a text that the document shows in no region is shown in one. -/
theorem C56_false_nested_regions : ∃ body, Sane body ∧ shaped body = true ∧ unmixed body = true ∧ wellTimed body = true ∧
    look (docOf body).validate 3000000 = some [⟨[.text "a".toList], some "red".toList, some "auto".toList, some "r".toList⟩,
      ⟨[.text "c".toList], some "red".toList, some "auto".toList, none⟩] ∧
    lookAt (docOf body) ⟨some 1000000, some 4000000⟩ none 3000000 =
      some [⟨[.text "a".toList], some "red".toList, some "auto".toList, some "r".toList⟩,
        ⟨[.text "c".toList], some "red".toList, some "auto".toList, some "r".toList⟩] :=
  ⟨exNested, Doc.sane_of rfl (by decide) (by decide), by decide, by decide, by decide +kernel, by decide +kernel, by decide +kernel⟩

end Verif.SegHead
