import Verif.Convert.LookDedup

/-! C108: what a viewer sees does not depend on a deduplicator before the encoder. -/
namespace Verif.Convert

open Verif.Doc hiding Name
open Verif.Style Verif.Time Verif.Node
open Verif.SegHead (mapN mapNL HDoc Full Piece piecesOf Held)
open Verif.Dedup (DElem DUse Ref)

/-- **C108** (partial), one document: whatever attribute values mean and in whatever order Python's dictionaries give their entries, a
document is encoded behind a deduplicator exactly if it is without one, and the two EBU-TT-D documents show the same at every media time.

Missing: documents that are not `Clean`, see C42 and C105. -/
theorem C108_shows_the_same_partial (h : List Char → Int) (order : List (Int × DElem) → List (Int × DElem)) (ho : ∀ l, (order l).Perm l)
    (mean : List (Option Val) → Specified) (pad : List (Option Val) → Option Val) (g : Geometry)
    (spot : List (Option Val) → List Char × List Char) (w : Whole) (o : HDoc) (hw : Describes mean pad g w o) (hc : Dedup.Clean h w.seen)
    (hids : o.ids.Nodup) (hn : NoClash o.head) (m : Media) (pr : Rat → List Char) (hpr : Function.Injective pr) (res : Rat × Rat)
    (place : Name → List Char × List Char) (hplace : ∀ r ∈ w.regions, place r.id.toList = spot r.vals) :
    (encodeH m pr res place o = none ∧ encodeDedup h order mean pad g spot m pr res w o = none) ∨
    ∃ d d', encodeH m pr res place o = some d ∧ encodeDedup h order mean pad g spot m pr res w o = some d' ∧
      ∀ u, List.Forall₂ (SamePiece d d') (dPiecesAt d u) (dPiecesAt d' u) := by
  have hwn : NoClash (w.head mean pad g) := by
    intro p hp
    rw [hw.head.sheet] at hp
    exact hn p hp
  obtain ⟨w', infos, doc, infos', doc', h1, h2, h3, h4⟩ := C106_encoded_alike_partial h order ho w hc mean pad g m pr hpr res spot hwn
  obtain ⟨w1, h1', _, _, _, htw, _⟩ := dedup_twin h order ho w hc
  rw [h1] at h1'
  cases h1'
  -- without the deduplicator
  have hself : encodeH m pr res place o = encodeH m pr res (w.place spot) (withWhole mean pad g w o) := by
    have e : withWhole mean pad g w o = { o with head := w.head mean pad g } := by
      unfold withWhole
      rw [hw.body]
    rw [e]
    refine (hw.head.encode ?_ m pr res).symm
    intro r hr
    rw [← hw.head.regions] at hr
    obtain ⟨e, he, rfl⟩ := List.mem_map.1 hr
    rw [hplace e he]
    exact place_vals (nodup_id (clean_regions hc)) he
  have hwids : (withWhole mean pad g w o).ids.Nodup := by
    have : (withWhole mean pad g w o).ids = o.ids := by
      unfold withWhole HDoc.ids
      simp only [hw.head.sheet, hw.head.regions, hw.body]
    rw [this]; exact hids
  have hwids' := dedup_ids ho hc h1 htw mean pad g o hwids
  obtain ⟨n, v1, v2⟩ := validate_of_present (o := withWhole mean pad g w o) hwids h2
  obtain ⟨n', v1', v2'⟩ := validate_of_present (o := withWhole mean pad g w' o) hwids' h3
  have e1 : encodeH m pr res place o = (w.encoded m pr res spot mean pad g doc).toOption := by
    rw [hself]
    unfold encodeH
    rw [v1]
    simp only [v2]
    rfl
  have e2 : encodeDedup h order mean pad g spot m pr res w o = (w'.encoded m pr res spot mean pad g doc').toOption := by
    unfold encodeDedup
    rw [h1, Option.bind_some]
    unfold encodeH
    rw [v1']
    simp only [v2']
    rfl
  rw [e1, e2]
  rcases h4 with ⟨e, k1, k2⟩ | ⟨d, d', k1, k2, k3, k4⟩
  · rw [k1, k2]
    exact .inl ⟨rfl, rfl⟩
  · rw [k1, k2]
    exact .inr ⟨d, d', rfl, rfl, alike_pieces k3 k4⟩

theorem encodeH_ids {m : Media} {pr : Rat → List Char} {res : Rat × Rat} {place : Name → List Char × List Char} {o : HDoc} {d : DDoc}
    (h : encodeH m pr res place o = some d) : o.ids.Nodup := by
  obtain ⟨_, _, hv, _⟩ := encodeH_ok h
  exact (SegHead.validate_ok hv).1

/-- **C108** (partial), from the live document to what is seen: behind a deduplicator and an encoder every piece of content that the live
document shows at an instant is shown at the corresponding media time, in the same order and looking the same; `d` is the EBU-TT-D document
made without the deduplicator, which is there to say how the region looks.

Missing: what `C107_encoded_looks_alike_partial` and `C108_shows_the_same_partial` ask of the document. -/
theorem C108_live_document_partial (h : List Char → Int) (order : List (Int × DElem) → List (Int × DElem)) (ho : ∀ l, (order l).Perm l)
    (mean : List (Option Val) → Specified) (pad : List (Option Val) → Option Val) (g : Geometry)
    (spot : List (Option Val) → List Char × List Char) (w : Whole) (o : HDoc) (hw : Describes mean pad g w o) (hc : Dedup.Clean h w.seen)
    (m : Media) (hrd : m.rd.Accurate) (hz0 : 0 ≤ m.zero) (hz : m.base = .clock → m.zero % 1000 = 0) (he : Encodable m o)
    (pr : Rat → List Char) (hpr : Function.Injective pr) (res : Rat × Rat) (place : Name → List Char × List Char)
    (hplace : ∀ r ∈ w.regions, place r.id.toList = spot r.vals) (d : DDoc) (hd : encodeH m pr res place o = some d) :
    ∃ d', encodeDedup h order mean pad g spot m pr res w o = some d' ∧ ∀ t, o.avail ≤ t → m.shift ≤ t →
      List.Forall₂ (fun p q' => ∃ q, SameShown none p q ∧ SamePiece d d' q q') (piecesOf o t) (dPiecesAt d' (t - m.shift)) := by
  rcases C108_shows_the_same_partial h order ho mean pad g spot w o hw hc (encodeH_ids hd) he.noClash m pr hpr res place hplace with
    ⟨k, _⟩ | ⟨d1, d', k1, k2, k3⟩
  · rw [hd] at k; cases k
  · rw [hd] at k1
    cases k1
    refine ⟨d', k2, fun t ht hs => ?_⟩
    exact forall₂_trans (fun a b c hab hbc => ⟨b, hab, hbc⟩)
      (C107_encoded_looks_alike_partial m hrd hz0 hz pr hpr res place o he d hd t ht hs) (k3 _)

/-! ### Behind a resequencer -/

/-- What the output of deduplicator and encoder for a segment shows at media time `u`, as `segPieces` has it for the encoder alone; `desc`
describes the documents. -/
def segPiecesD (h : List Char → Int) (order : List (Int × DElem) → List (Int × DElem)) (mean : List (Option Val) → Specified)
    (pad : List (Option Val) → Option Val) (g : Geometry) (spot : List (Option Val) → List Char × List Char)
    (m : Media) (pr : Rat → List Char) (res : Rat × Rat) (desc : HDoc → Whole) (s : RSeg (Option HDoc)) (u : Int) : List DPiece :=
  (s.doc.bind (fun o => encodeDedup h order mean pad g spot m pr res (desc o) o)).elim [] (fun d => dPiecesAt d u)

/-- **C108** (partial), a resequencer, a deduplicator and an encoder in a row: at every media time that the segments emitted so far cover,
the EBU-TT-D documents made of them show, played together, exactly the pieces of content that the document shows that was active at the
corresponding instant when the segment was extracted, in the same order and looking the same, and nothing if none was active; at other media
times they show nothing.  Regions look as they do in the EBU-TT-D documents that the same segments give without the deduplicator.

Missing: what `C107_whole_run_partial` asks of the documents held, and `C108_shows_the_same_partial` of the segments. -/
theorem C108_whole_run_partial {docs : Seq.Doc → HDoc} {discard : Bool} {start len : Int} (hl : 0 < len)
    (hms : start % 1000 = 0 ∧ len % 1000 = 0) (evs : List REv)
    (hrun : ∀ k, ∃ log, RReach (extractWhole docs discard) start len
      (runR (extractWhole docs discard) len { lastEnd := start } (evs.take k)).1 log)
    (m : Media) (hrd : m.rd.Accurate) (hz0 : 0 ≤ m.zero) (hzms : m.base = .clock → m.zero % 1000 = 0)
    (hz : m.base = .clock → m.zero ≤ start) (pr : Rat → List Char) (hpr : Function.Injective pr) (res : Rat × Rat)
    (place : Name → List Char × List Char) (segs : List (RSeg (Option HDoc)))
    (hsegs : segs = (runR (extractWhole docs discard) len { lastEnd := start } evs).2)
    (hdocs : ∀ k q, (runR (extractWhole docs discard) len { lastEnd := start } (evs.take k)).1.cons.seq = some (some q) →
      (∀ d ∈ q.docs, Held (docs d) d (start + segs.length * len) ∧ flat (docs d).body = true ∧ Flat (docs d).head ∧ (docs d).base = m.base) ∧
      ∀ d ∈ q.docs, ∀ d' ∈ q.docs, (docs d).head.geo = (docs d').head.geo)
    (henc : ∀ s ∈ segs, ∀ o, s.doc = some o → (encodeH m pr res place o).isSome = true)
    (h : List Char → Int) (order : List (Int × DElem) → List (Int × DElem)) (ho : ∀ l, (order l).Perm l)
    (mean : List (Option Val) → Specified) (pad : List (Option Val) → Option Val) (g : Geometry)
    (spot : List (Option Val) → List Char × List Char) (desc : HDoc → Whole)
    (hdesc : ∀ s ∈ segs, ∀ o, s.doc = some o → Describes mean pad g (desc o) o ∧ Dedup.Clean h (desc o).seen ∧ NoClash o.head ∧
      ∀ r ∈ (desc o).regions, place r.id.toList = spot r.vals) (u : Int) (hu : 0 ≤ u) :
    (start ≤ u + m.shift ∧ u + m.shift < start + segs.length * len →
      ∃ k st q, evs[k]? = some .tick ∧ st = (runR (extractWhole docs discard) len { lastEnd := start } (evs.take k)).1 ∧
        st.lastEnd ≤ u + m.shift ∧ u + m.shift < st.lastEnd + len ∧ st.cons.seq = some (some q) ∧
        (∀ a, Seq.ActiveAt q a (u + m.shift) →
          List.Forall₂ (fun p q' => ∃ s ∈ segs, ∃ o d d' q, s.doc = some o ∧ encodeH m pr res place o = some d ∧
              encodeDedup h order mean pad g spot m pr res (desc o) o = some d' ∧ SameShown (some a.num) p q ∧ SamePiece d d' q q')
            (piecesOf (docs a) (u + m.shift)) ((segs.map (fun s => segPiecesD h order mean pad g spot m pr res desc s u)).flatten)) ∧
        ((∀ a, ¬ Seq.ActiveAt q a (u + m.shift)) → (segs.map (fun s => segPiecesD h order mean pad g spot m pr res desc s u)).flatten = [])) ∧
    (¬(start ≤ u + m.shift ∧ u + m.shift < start + segs.length * len) →
      (segs.map (fun s => segPiecesD h order mean pad g spot m pr res desc s u)).flatten = []) := by
  have hseg : ∀ l : List (RSeg (Option HDoc)), (∀ s ∈ l, s ∈ segs) →
      List.Forall₂ (fun q q' => ∃ s ∈ segs, ∃ o d d', s.doc = some o ∧ encodeH m pr res place o = some d ∧
          encodeDedup h order mean pad g spot m pr res (desc o) o = some d' ∧ SamePiece d d' q q')
        ((l.map (fun s => segPieces m pr res place s u)).flatten)
        ((l.map (fun s => segPiecesD h order mean pad g spot m pr res desc s u)).flatten) := by
    intro l
    induction l with
    | nil => intro _; exact .nil
    | cons s l ih =>
      intro hs
      have ih := ih (fun x hx => hs x (by simp [hx]))
      have hsm := hs s (by simp)
      rw [List.map_cons, List.map_cons, List.flatten_cons, List.flatten_cons]
      refine List.rel_append ?_ ih
      unfold segPieces segPiecesD
      cases hsd : s.doc with
      | none => exact .nil
      | some o =>
        obtain ⟨hde, hcl, hnc, hpl⟩ := hdesc s hsm o hsd
        obtain ⟨d, hd⟩ := Option.isSome_iff_exists.1 (henc s hsm o hsd)
        rcases C108_shows_the_same_partial h order ho mean pad g spot (desc o) o hde hcl (encodeH_ids hd) hnc m pr hpr res place hpl with
          ⟨k, _⟩ | ⟨d1, d', k1, k2, k3⟩
        · rw [hd] at k; cases k
        · rw [hd] at k1
          cases k1
          simp only [Option.bind_some, hd, k2, Option.elim_some]
          exact SegHead.forall₂_imp (fun q q' hq => ⟨s, hsm, o, d, d', hsd, hd, k2, hq⟩) (k3 u)
  have hall := hseg segs (fun _ hs => hs)
  have hnil : (segs.map (fun s => segPieces m pr res place s u)).flatten = [] →
      (segs.map (fun s => segPiecesD h order mean pad g spot m pr res desc s u)).flatten = [] := by
    intro e
    rw [e] at hall
    generalize (segs.map (fun s => segPiecesD h order mean pad g spot m pr res desc s u)).flatten = y at *
    cases hall
    rfl
  obtain ⟨a1, a2⟩ := C107_whole_run_partial hl hms evs hrun m hrd hz0 hzms hz pr hpr res place segs hsegs hdocs henc u hu
  refine ⟨fun hr => ?_, fun hr => hnil (a2 hr)⟩
  obtain ⟨k, st, q, b1, b2, b3, b4, b5, b6, b7⟩ := a1 hr
  refine ⟨k, st, q, b1, b2, b3, b4, b5, fun a ha => ?_, fun hna => hnil (b7 hna)⟩
  exact forall₂_trans (fun p q q' hpq ⟨s, hs, o, d, d', c1, c2, c3, c4⟩ => ⟨s, hs, o, d, d', q, c1, c2, c3, hpq, c4⟩) (b6 a ha) hall

/-! ### Example: the segments of `exWholeSegs` behind a deduplicator; the first has the style `s` of both documents -/

/-- The attributes of a style are its colour, of a region its place. -/
def exDesc (o : HDoc) : Whole where
  styles := o.head.sheet.map (fun p => ⟨String.ofList p.1, p.2.map refOf, [(o.head.own p.1).inh .color], []⟩)
  regions := o.head.regions.map (fun r => ⟨String.ofList r.id, r.refs.map refOf, [some "4c 10c".toList, some "32c 5c".toList], []⟩)
  body := o.body

def exColour (l : List (Option Val)) : Specified := { inh := fun x => match x with | .color => (l[0]?).join | _ => none }

/-- The place of a region. -/
def exWhere (l : List (Option Val)) : List Char × List Char := (((l[0]?).join).getD [], ((l[1]?).join).getD [])

/-- A style sets the colour only. -/
def colourOnly (s : Specified) : Bool :=
  ([.direction, .fontFamily, .fontStyle, .fontWeight, .linePadding, .multiRowAlign, .textAlign, .textDecoration, .wrapOption] : List IAttr).all
    (fun x => (s.inh x).isNone) && ([.backgroundColor, .padding, .unicodeBidi] : List SAttr).all (fun x => (s.simple x).isNone) &&
  s.fs.isNone && s.lh.isNone

theorem colourOnly_sound {s : Specified} (h : colourOnly s = true) : exColour [s.inh .color] = s := by
  obtain ⟨si, ih, fs, lh⟩ := s
  simp only [colourOnly, List.all_cons, List.all_nil, Bool.and_eq_true, Option.isNone_iff_eq_none, and_true] at h
  obtain ⟨⟨⟨⟨a1, a2, a3, a4, a5, a6, a7, a8, a9⟩, b1, b2, b3⟩, c⟩, e⟩ := h
  simp only [exColour, Specified.mk.injEq]
  refine ⟨?_, ?_, c.symm, e.symm⟩
  · funext x
    cases x <;> simp_all
  · funext x
    cases x <;> simp_all

/-- What the example asks of the description of a segment, as a check. -/
def describedCheck (o : HDoc) : Bool :=
  o.head.sheet.all (fun p => colourOnly (o.head.own p.1)) && o.head.regions.all (fun r => r.padding.isNone) && decide (o.head.geo.kh = 1 ∧ o.head.geo.kv = 1) &&
  decide ((o.head.sheet.map (·.1)).Nodup)

theorem nameOf_refOf (x : Name) : nameOf (refOf x) = x := by
  show ((some (String.ofList x)).getD "None").toList = x
  rw [Option.getD_some, String.toList_ofList]

theorem described {o : HDoc} (h : describedCheck o = true) : Describes exColour (fun _ => none) ⟨1, 1⟩ (exDesc o) o := by
  simp only [describedCheck, Bool.and_eq_true, List.all_eq_true, decide_eq_true_eq, Option.isNone_iff_eq_none] at h
  obtain ⟨⟨⟨h1, h2⟩, h3⟩, h4⟩ := h
  refine ⟨⟨?_, ?_, ?_, ?_⟩, rfl⟩
  · show (o.head.sheet.map _).map _ = _
    rw [List.map_map]
    conv_rhs => rw [← List.map_id o.head.sheet]
    apply List.map_congr_left
    intro p _
    simp only [Function.comp, List.map_map, String.toList_ofList, id]
    rw [show (nameOf ∘ refOf : Name → Name) = id from funext nameOf_refOf, List.map_id]
  · show (o.head.regions.map _).map _ = _
    rw [List.map_map]
    conv_rhs => rw [← List.map_id o.head.regions]
    apply List.map_congr_left
    intro r hr
    simp only [Function.comp, List.map_map, String.toList_ofList, id]
    rw [show (nameOf ∘ refOf : Name → Name) = id from funext nameOf_refOf, List.map_id, ← h2 r hr]
  · obtain ⟨e1, e2⟩ := h3
    show (⟨1, 1⟩ : Geometry) = o.head.geo
    cases hg : o.head.geo
    rw [hg] at e1 e2
    simp only at e1 e2
    rw [e1, e2]
  · intro p hp
    show Option.getD (Option.map _ ((o.head.sheet.map _).find? _)) ({} : Specified) = _
    rw [List.find?_map]
    have : ∀ (l : List (Name × List Name)), (∀ q ∈ l, colourOnly (o.head.own q.1) = true) → p ∈ l →
        ((Option.map (fun s : DElem => exColour s.vals) (Option.map (fun q : Name × List Name =>
          (⟨String.ofList q.1, q.2.map refOf, [(o.head.own q.1).inh .color], []⟩ : DElem))
          (l.find? ((fun s : DElem => decide (s.id.toList = p.1)) ∘ fun q : Name × List Name =>
            (⟨String.ofList q.1, q.2.map refOf, [(o.head.own q.1).inh .color], []⟩ : DElem)))))).getD {} = o.head.own p.1 := by
      intro l hl hm
      induction l with
      | nil => simp at hm
      | cons q l ih =>
        rw [List.find?_cons]
        by_cases e : q.1 = p.1
        · simp only [Function.comp, String.toList_ofList, e, decide_true, Option.map_some, Option.getD_some]
          exact colourOnly_sound (by rw [← e]; exact hl q (by simp))
        · have hm' : p ∈ l := by
            rcases List.mem_cons.1 hm with rfl | hm
            · exact absurd rfl e
            · exact hm
          simp only [Function.comp, String.toList_ofList, e, decide_false]
          exact ih (fun x hx => hl x (by simp [hx])) hm'
    exact this o.head.sheet h1 hp

/-- The conditions of `Dedup.Clean`, as a check. -/
def cleanCheck (d : Dedup.DDoc) : Bool :=
  decide (((d.styles ++ d.regions).map DElem.id).Nodup) && d.styles.all (fun s => Dedup.plainId s.id && s.refs.isEmpty) &&
  (d.styles ++ d.regions).all (fun e => Dedup.tameVals e.vals && e.wild.isEmpty) &&
  d.styles.all (fun s => d.regions.all (fun r => decide (s.vals.length ≠ r.vals.length))) &&
  d.regions.all (fun e => e.refs.all (fun r => d.styles.any (fun s => decide (r = some s.id))) && decide ((e.refs.map (Dedup.look d)).Nodup)) &&
  d.uses.all (fun u => u.refs.all (fun r => d.styles.any (fun s => decide (r = some s.id))) && decide ((u.refs.map (Dedup.look d)).Nodup) &&
    u.region.all (fun x => d.regions.any (fun e => decide (e.id = x))))

theorem clean_of_check {d : Dedup.DDoc} (h : cleanCheck d = true) : Dedup.Clean Dedup.code d := by
  simp only [cleanCheck, Bool.and_eq_true, List.all_eq_true, decide_eq_true_eq, List.any_eq_true, List.isEmpty_iff] at h
  obtain ⟨⟨⟨⟨⟨a1, a2⟩, a3⟩, a4⟩, a5⟩, a6⟩ := h
  refine ⟨a1, fun s hs => (a2 s hs).1, fun s hs => (a2 s hs).2, a3, a4, fun e he => (a5 e he).1, fun u hu => (a6 u hu).1.1, ?_,
    fun e he => (a5 e he).2, fun u hu => Dedup.flatRepeats_of_nodup (a6 u hu).1.2, fun a b _ _ e => Dedup.code_inj a b e⟩
  intro u hu x hx
  have := (a6 u hu).2
  rw [hx] at this
  simpa using this

/-- What `C108_whole_run_partial` asks of the segments beyond `C107_whole_run_partial` holds of those of the example. -/
example : ∀ s ∈ exWholeSegs, ∀ o, s.doc = some o → Describes exColour (fun _ => none) ⟨1, 1⟩ (exDesc o) o ∧
    Dedup.Clean Dedup.code (exDesc o).seen ∧ NoClash o.head ∧ ∀ r ∈ (exDesc o).regions, exPlace r.id.toList = exWhere r.vals := by
  have hall : exWholeSegs.all (fun s => s.doc.all (fun o => describedCheck o && cleanCheck (exDesc o).seen &&
      o.head.sheet.all (fun p => !("autogenFontStyle_None_".toList).isPrefixOf p.1))) = true := by decide +kernel
  intro s hs o ho
  rw [List.all_eq_true] at hall
  have := hall s hs
  rw [ho, Option.all_some, Bool.and_eq_true, Bool.and_eq_true] at this
  refine ⟨described this.1.1, clean_of_check this.1.2, ?_, ?_⟩
  · intro p hp hpre
    have := List.all_eq_true.1 this.2 p hp
    rw [List.isPrefixOf_iff_prefix.2 hpre] at this
    cases this
  · intro r hr
    obtain ⟨q, _, rfl⟩ := List.mem_map.1 hr
    rfl

set_option synthInstance.maxSize 1000 in
/-- The first segment loses a style behind the deduplicator, and the documents show what they show without it. -/
example : exWholeSegs.map (fun s => (s.doc.bind (fun o => dedupWhole Dedup.code id (exDesc o))).map (fun w => w.styles.map (·.id))) =
      [some ["SEQ2.s", "SEQ2.t"], some ["SEQ2.s", "SEQ2.t"]] ∧
    [1000000, 5000000, 6000000, 8000000].map (fun u => ((exWholeSegs.map (fun s => segPiecesD Dedup.code id exColour (fun _ => none) ⟨1, 1⟩ exWhere
        exMediaM exPr (40, 20) exDesc s u)).flatten).map (fun q => (q.content, q.value .color))) =
      [[([.text "one".toList], some "#ff0000ff".toList)], [([.text "two".toList], some "#ff0000ff".toList)],
        [([.text "two".toList], some "#ff0000ff".toList)], []] := by decide +kernel

/-- A document with a style and a region twice. -/
def exTwice : Whole where
  styles := [⟨"s", [], [some "red".toList], []⟩, ⟨"t", [], [some "blue".toList], []⟩, ⟨"u", [], [some "red".toList], []⟩]
  regions := [⟨"r", [some "s"], [some "4c 10c".toList, some "32c 5c".toList], []⟩, ⟨"q", [some "u"], [some "4c 10c".toList, some "32c 5c".toList], []⟩]
  body := .elem { kind := .body } [.elem { kind := .div } [SegHead.line (some "r".toList) ["u".toList] 1 9 "one",
    SegHead.line (some "q".toList) ["t".toList] 5 8 "two"]]

def exTwiceDoc : HDoc := withWhole exColour (fun _ => none) ⟨1, 1⟩ exTwice (SegHead.exDocs (Seq.mk 1 1 1000000 (some 9000000)))

/-- `C108_live_document_partial` applies to it. -/
example (d : DDoc) (hd : encodeH exMediaM exPr (40, 20) exPlace exTwiceDoc = some d) :
    ∃ d', encodeDedup Dedup.code id exColour (fun _ => none) ⟨1, 1⟩ exWhere exMediaM exPr (40, 20) exTwice exTwiceDoc = some d' ∧
      ∀ t, exTwiceDoc.avail ≤ t → exMediaM.shift ≤ t →
      List.Forall₂ (fun p q' => ∃ q, SameShown none p q ∧ SamePiece d d' q q') (piecesOf exTwiceDoc t) (dPiecesAt d' (t - exMediaM.shift)) :=
  C108_live_document_partial Dedup.code id (fun l => List.Perm.refl l) exColour (fun _ => none) ⟨1, 1⟩ exWhere exTwice exTwiceDoc
    ⟨⟨rfl, rfl, rfl, fun _ _ => rfl⟩, rfl⟩ (clean_of_check (by decide +kernel)) exMediaM exactReader_accurate (by decide) (by decide)
    ⟨⟨_, _, rfl, rfl, rfl⟩, by decide +kernel, by decide +kernel, by intro p hp; revert p; decide +kernel, by intro p hp; revert p; decide +kernel,
      by decide +kernel, by decide +kernel, by decide +kernel, by decide⟩
    exPr exPr_injective (40, 20) exPlace (by intro r hr; revert r; decide +kernel) d hd

set_option synthInstance.maxSize 1000 in
/-- What it comes to: one of the regions is gone, and nothing is seen of that. -/
example : (encodeH exMediaM exPr (40, 20) exPlace exTwiceDoc).map (fun d => [1000000, 5000000, 8000000, 9000000].map (lookD d)) =
      some [[([.text "one".toList], some "#ff0000ff".toList, 1, some "r".toList)],
        [([.text "one".toList], some "#ff0000ff".toList, 1, some "r".toList), ([.text "two".toList], some "#0000ffff".toList, 1, some "q".toList)],
        [([.text "one".toList], some "#ff0000ff".toList, 1, some "r".toList)], []] ∧
    (encodeDedup Dedup.code id exColour (fun _ => none) ⟨1, 1⟩ exWhere exMediaM exPr (40, 20) exTwice exTwiceDoc).map (fun d =>
      [1000000, 5000000, 8000000, 9000000].map (lookD d)) =
      some [[([.text "one".toList], some "#ff0000ff".toList, 1, some "q".toList)],
        [([.text "one".toList], some "#ff0000ff".toList, 1, some "q".toList), ([.text "two".toList], some "#0000ffff".toList, 1, some "q".toList)],
        [([.text "one".toList], some "#ff0000ff".toList, 1, some "q".toList)], []] := by decide +kernel

end Verif.Convert
