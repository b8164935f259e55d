import Verif.Convert.Place
import Verif.Convert.LookChainProps

/-!
# C111: texts stay where they are, up to the EBU-TT-D documents
-/
namespace Verif.Convert

open Verif.Doc hiding Name
open Verif.Style
open Verif.Size (Measure readOrigin readExtent)
open Verif.SegHead (HDoc Full Piece newName Held piecesOf extractFull Placed Extras Frame Spot Where parts extractPlaced spotsBy)

/-! ### Specification -/

/-- Where content of an EBU-TT-D document is. -/
structure DWhere where
  /-- left and top, width and height as parts of the picture; EBU-TT-D has per cent only -/
  area : Option ((Rat × Rat) × (Rat × Rat))
  extras : Option Extras
  padding : Option (List Char)
deriving DecidableEq

/-- The part of the picture that a region takes. -/
def DRegion.area (q : DRegion) : Option ((Rat × Rat) × (Rat × Rat)) :=
  match q.origin, q.extent with
  | (.pct, x, y), (.pct, w, h) => some ((x / 100, y / 100), (w / 100, h / 100))
  | _, _ => none

/-- Where the region of that name is. -/
def DPlaced.region (d : DPlaced) (r : Name) : Option DWhere :=
  (d.doc.regions.find? (fun q => decide (q.id = r))).map (fun q => ⟨q.area, d.extras.lookup q.id, q.padding⟩)

/-- A piece of content and where it is. -/
structure DSpot where
  content : List Item
  place : Option DWhere
deriving DecidableEq

/-- What an EBU-TT-D document shows at a media time, and where. -/
def DPlaced.spotsAt (d : DPlaced) (u : Int) : List DSpot := (dPiecesAt d.doc u).map (fun x => ⟨x.content, x.region.bind d.region⟩)

/-- Origin or extent are given in pixels. -/
def inPixels (f : Frame) : Bool :=
  decide ((readOrigin f.origin).map (·.1) = some .px) || decide ((readExtent f.extent).map (·.1) = some .px)

/-- In the same part of the picture, unless that is given in pixels, and arranged the same way. -/
structure SameWhere (a : Where) (b : DWhere) : Prop where
  area : inPixels a.frame = false → b.area = a.area ∧ a.area ≠ none
  extras : b.extras = some a.frame.extras
  padding : b.padding = a.padding

/-- The same content, both times in no region or in the same place. -/
structure SameSpot (a : Spot) (b : DSpot) : Prop where
  content : b.content = a.content
  place : a.place = none ∧ b.place = none ∨ ∃ x y, a.place = some x ∧ b.place = some y ∧ SameWhere x y

/-! ### Proofs -/

theorem parts_conv {cells px : Rat × Rat} {x : Measure × Rat × Rat} (h : x.1 ≠ .px) :
    ∃ a b, convPlace cells x = (.pct, a, b) ∧ parts cells px x = (a / 100, b / 100) := by
  obtain ⟨u, a, b⟩ := x
  cases u with
  | px => exact absurd rfl h
  | pct => exact ⟨a, b, rfl, rfl⟩
  | cell =>
    refine ⟨_, _, rfl, ?_⟩
    have e : ∀ q : Rat, q * 100 / 100 = q := by intro q; rw [Rat.div_def, Rat.mul_assoc, show (100 : Rat) * (100 : Rat)⁻¹ = 1 by decide +kernel, Rat.mul_one]
    simp only [parts, e]

theorem encodeH_regions {m : Media} {pr : Rat → List Char} {res : Rat × Rat} {place : Name → List Char × List Char} {o : HDoc} {d : DDoc}
    (h : encodeH m pr res place o = some d) : ∃ ds, convRegions res place o.head.regions = .ok ds ∧ d.regions = withDefaultRegion ds := by
  obtain ⟨infos, n, _, hc⟩ := encodeH_ok h
  unfold convertDoc at hc
  cases hr : convRegions res place o.head.regions with
  | error e => rw [hr] at hc; cases hc
  | ok ds =>
    rw [hr] at hc
    simp only at hc
    refine ⟨ds, rfl, ?_⟩
    split at hc
    · cases hw : wconv m (fontId pr) (SegHead.mapN Full.pres n) [] with
      | error e => rw [hw] at hc; cases hc
      | ok r => rw [hw] at hc; cases hc; rfl
    · cases hc; rfl

theorem extras_lookup : ∀ {rs : List (RegionDef × Frame)}, (rs.map (·.1.id)).Nodup → ∀ q ∈ rs,
    (rs.map convExtras).lookup q.1.id = some q.2.extras
  | r :: rs, hn, q, hq => by
    rw [List.map_cons, List.nodup_cons] at hn
    rw [List.map_cons]
    show List.lookup q.1.id ((r.1.id, _) :: _) = _
    rw [List.lookup_cons]
    rcases List.mem_cons.mp hq with e | e
    · rw [e, beq_self_eq_true]
    · have : (q.1.id == r.1.id) = false := by
        rw [beq_eq_false_iff_ne]
        intro he
        exact hn.1 (he ▸ List.mem_map_of_mem (f := fun q : RegionDef × Frame => q.1.id) e)
      rw [this]
      exact extras_lookup hn.2 q e

/-- Regions are where they were. -/
theorem region_same {m : Media} {pr : Rat → List Char} {p : Placed} (hp : p.Ok) (hids : p.doc.ids.Nodup) {d : DPlaced} (h : encodeP m pr p = some d) {r : Name}
    (hr : r ∈ p.doc.head.regions.map (·.id)) : ∃ x y, p.region r = some x ∧ d.region r = some y ∧ SameWhere x y := by
  unfold encodeP at h
  rw [Option.map_eq_some_iff] at h
  obtain ⟨dd, h, hd⟩ := h
  obtain ⟨ds, h1, h2⟩ := encodeH_regions h
  have hn := SegHead.regs_nodup hp hids
  have hn' : (p.doc.head.regions.map (·.id)).Nodup := by rw [← hp, List.map_map]; exact hn
  rw [← hp, List.map_map] at hr
  obtain ⟨q, hq, hqr⟩ := List.mem_map.mp hr
  change q.1.id = r at hqr
  have hqm : q.1 ∈ p.doc.head.regions := by rw [← hp]; exact List.mem_map_of_mem hq
  obtain ⟨w, w1, w2⟩ := convRegions_find (convRegions_forall h1) hn' q.1 hqm (n := r) hqr
  obtain ⟨o, e, r1, r2, hw⟩ := convRegion_ok w1
  have hplace : placeOf p q.1.id = (q.2.origin, q.2.extent) := by
    unfold placeOf
    rw [SegHead.find_some_of_mem (fun q : RegionDef × Frame => q.1.id) hn hq]
  rw [hplace] at r1 r2
  have hreg := SegHead.region_find hn hq
  rw [hqr] at hreg
  refine ⟨_, ⟨w.area, d.extras.lookup w.id, w.padding⟩, hreg, ?_, ?_, ?_, ?_⟩
  · unfold DPlaced.region
    rw [← hd]
    simp only
    rw [h2, w2]
    rfl
  · intro hpx
    have hpx1 : o.1 ≠ .px ∧ e.1 ≠ .px := by
      simp only [inPixels, r1, r2, Option.map_some, Option.some.injEq, Bool.or_eq_false_iff, decide_eq_false_iff_not] at hpx
      exact hpx
    obtain ⟨a, b, c1, c2⟩ := parts_conv (cells := p.cells) (px := (p.doc.head.geo.kh, p.doc.head.geo.kv)) hpx1.1
    obtain ⟨a', b', c3, c4⟩ := parts_conv (cells := p.cells) (px := (p.doc.head.geo.kh, p.doc.head.geo.kv)) hpx1.2
    have hA : p.area q.2 = some ((a / 100, b / 100), (a' / 100, b' / 100)) := by
      unfold SegHead.Placed.area
      rw [r1, r2]
      simp only
      rw [c2, c4]
    refine ⟨?_, by rw [hA]; simp⟩
    show w.area = p.area q.2
    rw [hA, hw]
    unfold DRegion.area
    simp only
    rw [c1, c3]
  · rw [← hd, hw]
    exact extras_lookup hn q hq
  · rw [hw]

theorem spots_same {m : Media} {pr : Rat → List Char} {p : Placed} (hp : p.Ok) {d : DPlaced} (h : encodeP m pr p = some d) {t u : Int}
    (hs : List.Forall₂ (SameShown none) (piecesOf p.doc t) (dPiecesAt d.doc u)) : List.Forall₂ SameSpot (p.spotsAt t) (d.spotsAt u) := by
  unfold SegHead.Placed.spotsAt DPlaced.spotsAt
  have hin : ∀ x ∈ piecesOf p.doc t, ∀ r, x.region = some r → p.doc.ids.Nodup ∧ r ∈ p.doc.head.regions.map (·.id) :=
    fun x hx r hr => SegHead.piece_region hx hr
  generalize piecesOf p.doc t = L at hs hin
  generalize dPiecesAt d.doc u = M at hs
  induction hs with
  | nil => exact .nil
  | @cons x y L M h1 _ ih =>
    refine .cons ?_ (ih (fun x hx => hin x (List.mem_cons_of_mem _ hx)))
    refine ⟨h1.content, ?_⟩
    have hreg : y.region = x.region := by
      rw [h1.region]
      cases x.region <;> rfl
    cases hr : x.region with
    | none =>
      left
      simp only
      rw [hreg, hr]
      exact ⟨rfl, rfl⟩
    | some r =>
      right
      obtain ⟨n1, n2⟩ := hin x List.mem_cons_self r hr
      obtain ⟨a, b, e1, e2, e3⟩ := region_same hp n1 h n2
      simp only
      rw [hreg, hr]
      exact ⟨a, b, e1, e2, e3⟩

/-- **C111** (partial), one document: at every instant from availability and media time zero on, the EBU-TT-D document shows at the
corresponding media time each piece of content in the part of the picture where the live document shows it, in a region with the
same display alignment, writing mode, background and overflow setting and padding.

Missing: the conditions of `Encodable` (as in C107); regions given in pixels (`C111_false_pixels`). -/
theorem C111_encoded_place_partial (m : Media) (hrd : m.rd.Accurate) (hz0 : 0 ≤ m.zero) (hz : m.base = .clock → m.zero % 1000 = 0)
    (pr : Rat → List Char) (hpr : Function.Injective pr) (p : Placed) (hp : p.Ok) (ho : Encodable m p.doc) (d : DPlaced)
    (h : encodeP m pr p = some d) (t : Int) (ht : p.doc.avail ≤ t) (hs : m.shift ≤ t) :
    List.Forall₂ SameSpot (p.spotsAt t) (d.spotsAt (t - m.shift)) := by
  refine spots_same hp h ?_
  unfold encodeP at h
  rw [Option.map_eq_some_iff] at h
  obtain ⟨dd, h, rfl⟩ := h
  exact C107_encoded_looks_alike_partial m hrd hz0 hz pr hpr p.cells (placeOf p) p.doc ho dd h t ht hs

/-- **C111** (partial), a sequence: of every window of every reachable sequence, the EBU-TT-D document made from the extracted
document shows, at every media time that corresponds to an instant of the window, each piece of content of the document active at
that instant in the part of the picture where that document shows it, arranged the same way; nothing where none is active, and
nothing at other media times.

Missing: what C107 asks of the held documents and the window, one cell resolution (`C111_false_cells`), and regions in pixels
(`C111_false_pixels`). -/
theorem C111_sequence_place_partial {cfg : Seq.Cfg} {agid : Option String} {s : Seq.State} {log : List Seq.Doc}
    (h : Seq.Reach cfg agid s log) (docs : Seq.Doc → Placed) (hok : ∀ d ∈ s.docs, (docs d).Ok) (lo hi : Option Int) (top : Int)
    (hlo : ∀ b, lo = some b → b % 1000 = 0) (hhi : ∀ e, hi = some e → e ≤ top ∧ e % 1000 = 0)
    (hlh : ∀ b e, lo = some b → hi = some e → b ≤ e)
    (hopen : hi = none → ∀ d ∈ s.docs, ∃ e, Seq.resolvedEnd s d = some (some e) ∧ e ≤ top)
    (hheld : ∀ d ∈ s.docs, Held (docs d).doc d top)
    (hgeo : ∀ d ∈ s.docs, ∀ d' ∈ s.docs, (docs d).doc.head.geo = (docs d').doc.head.geo ∧ (docs d).cells = (docs d').cells)
    (hf : ∀ d ∈ s.docs, flat (docs d).doc.body = true ∧ Flat (docs d).doc.head)
    (m : Media) (hrd : m.rd.Accurate) (hz0 : 0 ≤ m.zero) (hms : m.base = .clock → m.zero % 1000 = 0)
    (hbase : ∀ d ∈ s.docs, (docs d).doc.base = m.base) (hz : m.base = .clock → ∃ b, lo = some b ∧ m.zero ≤ b)
    (pr : Rat → List Char) (hpr : Function.Injective pr)
    (o : Placed) (ho : extractPlaced s docs lo hi = some (some o)) (d : DPlaced) (hd : encodeP m pr o = some d) (u : Int) (hu : 0 ≤ u) :
    (Win.at ⟨lo, hi⟩ (u + m.shift) = true →
        (∀ a, Seq.ActiveAt s a (u + m.shift) → List.Forall₂ SameSpot ((docs a).spotsAt (u + m.shift)) (d.spotsAt u)) ∧
        ((∀ a, ¬ Seq.ActiveAt s a (u + m.shift)) → d.spotsAt u = [])) ∧
      (Win.at ⟨lo, hi⟩ (u + m.shift) = false → d.spotsAt u = []) := by
  obtain ⟨out, hout, hshow⟩ := SegHead.C111_resegmented_place_partial h docs hok lo hi top hlo hhi hlh hopen hheld hgeo
  rw [ho] at hout
  cases hout
  obtain ⟨ws, hws, _, hfst, _⟩ := Seq.C12_windows h lo hi hlh
  have hwd : ∀ w ∈ ws, w.1 ∈ s.docs := by
    intro w hw
    have : w.1 ∈ ws.map (·.1) := List.mem_map_of_mem hw
    rw [hfst, List.mem_filter] at this
    exact this.1
  have hdoc := SegHead.extractPlaced_doc hok hws hwd
  rw [ho] at hdoc
  have hp := SegHead.extractPlaced_ok hok hws hwd ho
  have henc : List.Forall₂ SameSpot (o.spotsAt (u + m.shift)) (d.spotsAt u) := by
    refine spots_same hp hd ?_
    unfold encodeP at hd
    rw [Option.map_eq_some_iff] at hd
    obtain ⟨dd, hd, rfl⟩ := hd
    exact extracted_encoded h (fun d => (docs d).doc) lo hi top hlo hhi hlh hopen hheld (fun d hd d' hd' => (hgeo d hd d' hd').1) hf m hrd hz0 hms
      hbase hz pr hpr o.cells (placeOf o) hdoc.symm hd u hu
  obtain ⟨h1, h2⟩ := hshow (u + m.shift)
  have hnil : spotsBy (some o) (u + m.shift) = [] → d.spotsAt u = [] := by
    intro he
    change o.spotsAt (u + m.shift) = [] at he
    rw [he] at henc
    generalize d.spotsAt u = L at henc
    cases henc
    rfl
  refine ⟨fun hw => ⟨fun a ha => ?_, fun hno => hnil ((h1 hw).2 hno)⟩, fun hw => hnil (h2 hw)⟩
  have := (h1 hw).1 a ha
  change o.spotsAt (u + m.shift) = _ at this
  rw [← this]
  exact henc

/-! ### Example: two documents, of which the second replaces the first at 5 s, resegmented from 2 s on and encoded -/

def exEncodedP : Option DPlaced := ((extractPlaced SegHead.exState SegHead.exPlaced (some 2000000) (some 12000000)).join).bind (encodeP exMediaM exPr)

set_option synthInstance.maxSize 1000 in
/-- The extracted document is encoded; region `r` was given in cells. The hypotheses are shown at C59, C107 and
`C111_resegmented_place_partial`. -/
example : exEncodedP.map (fun d => [1999999, 4999999, 5000000].map d.spotsAt) =
    some [[], [⟨[.text "one".toList], some ⟨some ((0, 3/4), (1, 1/4)), some (SegHead.exFrame "r".toList).extras, none⟩⟩],
      [⟨[.text "two".toList], some ⟨some ((1/10, 1/5), (4/5, 1/10)), some (SegHead.exFrame "q".toList).extras, none⟩⟩]] := by decide +kernel

/-- A document whose region is given in pixels. -/
def exPixels : Placed := SegHead.placed (fun _ => ⟨"0px 300px".toList, "800px 100px".toList, {}⟩) (40, 20)
  { SegHead.oneLine "r" [] 1 9 "one" with head := { Style.exHead with geo := ⟨1/20, 1/20⟩ } }

set_option synthInstance.maxSize 1000 in
/-- **C111** is false for regions in pixels: they are passed on in pixels, and the EBU-TT-D document, which has no size to relate them
to, does not say where they are. -/
theorem C111_false_pixels : ∃ p : Placed, p.Ok ∧ Encodable exMediaM p.doc ∧
    (p.spotsAt 3000000).map (fun x => x.place.bind (·.area)) = [some ((0, 3/4), (1, 1/4))] ∧
    (encodeP exMediaM exPr p).map (fun d => (d.spotsAt 3000000).map (fun x => x.place.bind (·.area))) = some [none] := by
  refine ⟨exPixels, SegHead.placed_ok _ _ _, ⟨⟨_, _, rfl, rfl, rfl⟩, by decide +kernel, by decide +kernel, ?_, ?_, by decide +kernel, by decide +kernel,
    by decide +kernel, by decide⟩, by decide +kernel, by decide +kernel⟩
  · intro p hp; revert p; decide +kernel
  · intro p hp; revert p; decide +kernel

end Verif.Convert
