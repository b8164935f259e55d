import Verif.Convert.PlaceRun
import Verif.Convert.LookSure

/-! C111: what a resequencer emits can be encoded. -/
namespace Verif.Convert

open Verif.Doc hiding Name
open Verif.Style Verif.Time Verif.Node
open Verif.SegHead (HDoc Held Placed Extras Frame Spot extractPlaced spotsBy newName)

/-- What the encoder asks of a held document beyond the rest: fonts of some size, and regions whose origins and extents can be read. -/
def Readable (p : Placed) : Prop :=
  SizedHead p.doc.head ∧ ∀ r ∈ p.regs, (Size.readOrigin r.2.origin).isSome = true ∧ (Size.readExtent r.2.extent).isSome = true

/-- **C111** (partial), a sequence: every window of every reachable sequence can be extracted, and what is extracted can be encoded.

Missing: what `C111_sequence_place_partial` asks of the documents; their fonts must not have a size of zero, and origins and extents of their
regions must be ones that can be read. -/
theorem C111_sequence_encodes_partial {cfg : Seq.Cfg} {agid : Option String} {s : Seq.State} {log : List Seq.Doc}
    (h : Seq.Reach cfg agid s log) (docs : Seq.Doc → Placed) (hok : ∀ d ∈ s.docs, (docs d).Ok) (lo hi : Option Int) (top : Int)
    (hlo : ∀ b, lo = some b → b % 1000 = 0) (hhi : ∀ e, hi = some e → e ≤ top ∧ e % 1000 = 0)
    (hlh : ∀ b e, lo = some b → hi = some e → b ≤ e)
    (hopen : hi = none → ∀ d ∈ s.docs, ∃ e, Seq.resolvedEnd s d = some (some e) ∧ e ≤ top)
    (hheld : ∀ d ∈ s.docs, Held (docs d).doc d top)
    (hgeo : ∀ d ∈ s.docs, ∀ d' ∈ s.docs, (docs d).doc.head.geo = (docs d').doc.head.geo ∧ (docs d).cells = (docs d').cells)
    (hf : ∀ d ∈ s.docs, flat (docs d).doc.body = true ∧ Flat (docs d).doc.head)
    (m : Media) (hrd : m.rd.Accurate) (hz0 : 0 ≤ m.zero) (hms : m.base = .clock → m.zero % 1000 = 0)
    (hbase : ∀ d ∈ s.docs, (docs d).doc.base = m.base) (hz : m.base = .clock → ∃ b, lo = some b ∧ m.zero ≤ b)
    (pr : Rat → List Char) (hread : ∀ d ∈ s.docs, Readable (docs d)) :
    ∃ out, extractPlaced s docs lo hi = some out ∧ ∀ o, out = some o → (encodeP m pr o).isSome = true := by
  obtain ⟨out, hout, _⟩ := SegHead.C111_resegmented_place_partial h docs hok lo hi top hlo hhi hlh hopen hheld hgeo
  refine ⟨out, hout, ?_⟩
  intro o ho
  rw [ho] at hout
  obtain ⟨ws, hws, _, hfst, _⟩ := Seq.C12_windows h lo hi hlh
  have hwd : ∀ w ∈ ws, w.1 ∈ s.docs := by
    intro w hw
    have : w.1 ∈ ws.map (·.1) := List.mem_map_of_mem hw
    rw [hfst, List.mem_filter] at this
    exact this.1
  have hdoc := SegHead.extractPlaced_doc hok hws hwd
  rw [hout] at hdoc
  have hdoc : SegHead.extractFull s (fun d => (docs d).doc) lo hi = some (some o.doc) := hdoc.symm
  obtain ⟨s1, _, s3⟩ := SegHead.extractPlaced_source h docs hok lo hi top hlh hheld hgeo o hout
  obtain ⟨out0, hout0, hval, _⟩ := SegHead.C59_resegmented_looks_alike_partial h (fun d => (docs d).doc) lo hi top hlo hhi hlh hopen hheld
    (fun d hd d' hd' => (hgeo d hd d' hd').1)
  rw [hdoc] at hout0
  cases hout0
  have hv := hval o.doc rfl
  obtain ⟨segs, hne, hm, hsegs⟩ := extracted_merged h (fun d => (docs d).doc) lo hi top hlo hhi hlh hopen hheld
    (fun d hd d' hd' => (hgeo d hd d' hd').1) hf m hbase hz hdoc
  have henc := ready_encodes hrd hz0 hms pr o.cells (placeOf o) (merged_ready hm (fun s' hs' => (hsegs s' hs').1.1)) hv (merged_sized hm hne (by
      intro s' hs'
      obtain ⟨_, d, hd, w, hx⟩ := hsegs s' hs'
      exact extract_sized (hread d hd).1 hx)) (by
    intro r hr
    rw [← s1] at hr
    obtain ⟨q, hq, rfl⟩ := List.mem_map.1 hr
    have hids : o.doc.ids.Nodup := by
      cases hval' : o.doc.validate with
      | error e => rw [hval'] at hv; cases hv
      | ok r => exact (SegHead.validate_ok hval').1
    have hplace : placeOf o q.1.id = (q.2.origin, q.2.extent) := by
      unfold placeOf
      rw [SegHead.find_some_of_mem (fun q : RegionDef × Frame => q.1.id) (SegHead.regs_nodup s1 hids) hq]
    obtain ⟨d, hd, r0, hr0, _, g2, _⟩ := s3 q hq
    rw [hplace, g2]
    exact (hread d hd).2 r0 hr0)
  unfold encodeP
  rw [Option.isSome_map]
  exact henc

/-- The conditions on the documents held in the course of a run. -/
def RunPlaced (docs : Seq.Doc → Placed) (discard : Bool) (start len : Int) (evs : List REv) (m : Media) (top : Int) : Prop :=
  ∀ k q, (runR (extractWholeP docs discard) len { lastEnd := start } (evs.take k)).1.cons.seq = some (some q) →
    (∀ d ∈ q.docs, (docs d).Ok ∧ Held (docs d).doc d top ∧ flat (docs d).doc.body = true ∧ Flat (docs d).doc.head ∧
      (docs d).doc.base = m.base ∧ Readable (docs d)) ∧
    ∀ d ∈ q.docs, ∀ d' ∈ q.docs, (docs d).doc.head.geo = (docs d').doc.head.geo ∧ (docs d).cells = (docs d').cells

/-- **C111** (partial), a resequencer: every segment it emits can be encoded.

Missing: see `RunPlaced`. -/
theorem C111_segments_encode_partial {docs : Seq.Doc → Placed} {discard : Bool} {start len : Int} (hl : 0 < len)
    (hms : start % 1000 = 0 ∧ len % 1000 = 0) (evs : List REv)
    (hrun : ∀ k, ∃ log, RReach (extractWholeP docs discard) start len
      (runR (extractWholeP docs discard) len { lastEnd := start } (evs.take k)).1 log)
    (m : Media) (hrd : m.rd.Accurate) (hz0 : 0 ≤ m.zero) (hzms : m.base = .clock → m.zero % 1000 = 0)
    (hz : m.base = .clock → m.zero ≤ start) (pr : Rat → List Char) (segs : List (RSeg (Option Placed)))
    (hsegs : segs = (runR (extractWholeP docs discard) len { lastEnd := start } evs).2)
    (hdocs : RunPlaced docs discard start len evs m (start + segs.length * len)) :
    ∀ g ∈ segs, ∀ o, g.doc = some o → (encodeP m pr o).isSome = true := by
  intro g hg o ho
  have hb := run_bounds hl evs segs hsegs g hg
  obtain ⟨k, _, htick⟩ := runR_emits (extractWholeP docs discard) len evs { lastEnd := start } g (by rw [← hsegs]; exact hg)
  obtain ⟨log, hr⟩ := hrun k
  have hdk := hdocs k
  generalize (runR (extractWholeP docs discard) len { lastEnd := start } (evs.take k)).1 = st at *
  obtain ⟨q, hq⟩ := tick_seq htick
  obtain ⟨o', ho', hgo⟩ := extractWholeP_emits hq htick
  have hdoc : g.doc = o' := by rw [hgo]
  have hlo : g.lo = st.lastEnd := by rw [hgo]
  have hhi : g.hi = st.lastEnd + len := by rw [hgo]
  obtain ⟨hd, hgeo⟩ := hdk q hq
  obtain ⟨n, hn⟩ := hr.window
  have hnl : 0 ≤ (n : Int) * len := Int.mul_nonneg (by omega) (by omega)
  have hmod : ((n : Int) * len) % 1000 = 0 := by
    rw [Int.mul_emod, hms.2]; simp
  obtain ⟨cfg, agid, l, hreach, _⟩ := RReach.seqOf (extractWholeP_discards docs discard) (by omega) hr q hq
  obtain ⟨out, e1, e2⟩ := C111_sequence_encodes_partial hreach docs (fun d hdm => (hd d hdm).1) (some st.lastEnd) (some (st.lastEnd + len))
    (st.lastEnd + len)
    (by intro b hb; injection hb with hb; omega) (by intro e he; injection he with he; omega)
    (by intro b e hb he; injection hb with hb; injection he with he; omega) (by intro hc; simp at hc)
    (fun d hdm => held_mono (hd d hdm).2.1 (by omega)) hgeo (fun d hdm => ⟨(hd d hdm).2.2.1, (hd d hdm).2.2.2.1⟩) m hrd hz0 hzms
    (fun d hdm => (hd d hdm).2.2.2.2.1) (fun hc => ⟨_, rfl, by have := hz hc; omega⟩) pr (fun d hdm => (hd d hdm).2.2.2.2.2)
  rw [ho'] at e1
  cases e1
  exact e2 o (by rw [← hdoc]; exact ho)

/-- **C111** (partial), a resequencer: `C111_whole_run_partial` without the condition that all segments can be encoded: at every media time
that the segments emitted so far cover, the EBU-TT-D documents made of them, played together, show each piece of content of the
document that was active at the corresponding instant, when the segment with that instant was extracted, in the part of the picture
where that document shows it, arranged the same way; nothing if none was active, and nothing at other media times.

Missing: see `RunPlaced`. -/
theorem C111_whole_run_sure_partial {docs : Seq.Doc → Placed} {discard : Bool} {start len : Int} (hl : 0 < len)
    (hms : start % 1000 = 0 ∧ len % 1000 = 0) (evs : List REv)
    (hrun : ∀ k, ∃ log, RReach (extractWholeP docs discard) start len
      (runR (extractWholeP docs discard) len { lastEnd := start } (evs.take k)).1 log)
    (m : Media) (hrd : m.rd.Accurate) (hz0 : 0 ≤ m.zero) (hzms : m.base = .clock → m.zero % 1000 = 0)
    (hz : m.base = .clock → m.zero ≤ start) (pr : Rat → List Char) (hpr : Function.Injective pr)
    (segs : List (RSeg (Option Placed)))
    (hsegs : segs = (runR (extractWholeP docs discard) len { lastEnd := start } evs).2)
    (hdocs : RunPlaced docs discard start len evs m (start + segs.length * len)) (u : Int) (hu : 0 ≤ u) :
    (start ≤ u + m.shift ∧ u + m.shift < start + segs.length * len →
      ∃ k st q, evs[k]? = some .tick ∧ st = (runR (extractWholeP docs discard) len { lastEnd := start } (evs.take k)).1 ∧
        st.lastEnd ≤ u + m.shift ∧ u + m.shift < st.lastEnd + len ∧ st.cons.seq = some (some q) ∧
        (∀ a, Seq.ActiveAt q a (u + m.shift) → List.Forall₂ SameSpot ((docs a).spotsAt (u + m.shift))
          ((segs.map (fun g => segSpots m pr g u)).flatten)) ∧
        ((∀ a, ¬ Seq.ActiveAt q a (u + m.shift)) → (segs.map (fun g => segSpots m pr g u)).flatten = [])) ∧
    (¬(start ≤ u + m.shift ∧ u + m.shift < start + segs.length * len) →
      (segs.map (fun g => segSpots m pr g u)).flatten = []) :=
  C111_whole_run_partial hl hms evs hrun m hrd hz0 hzms hz pr hpr segs hsegs
    (fun k q hq => ⟨fun d hd => ⟨((hdocs k q hq).1 d hd).1, ((hdocs k q hq).1 d hd).2.1, ((hdocs k q hq).1 d hd).2.2.1,
      ((hdocs k q hq).1 d hd).2.2.2.1, ((hdocs k q hq).1 d hd).2.2.2.2.1⟩, (hdocs k q hq).2⟩)
    (C111_segments_encode_partial hl hms evs hrun m hrd hz0 hzms hz pr segs hsegs hdocs) u hu

/-! ### Example: `exPlaced`, `exEvents` -/

/-- The documents of the example are `Readable`; the rest of `RunPlaced` is shown beside `C111_whole_run_partial`. -/
example : ∀ d ∈ Doc.exHeld, Readable (SegHead.exPlaced d) := by
  intro d hd
  refine ⟨sized_of_check ?_, ?_⟩
  · revert d; decide +kernel
  · have : ∀ d ∈ Doc.exHeld, (SegHead.exPlaced d).regs.all (fun r => (Size.readOrigin r.2.origin).isSome && (Size.readExtent r.2.extent).isSome) = true := by
      decide +kernel
    intro r hr
    have := List.all_eq_true.mp (this d hd) r hr
    simpa using this

/-- A region whose extent cannot be read: the document cannot be encoded. -/
example : (encodeP exMediaM exPr (SegHead.placed (fun _ => ⟨"0% 0%".toList, "wide".toList, {}⟩) (40, 20) (SegHead.oneLine "r" [] 1 9 "one"))).isSome = false := by
  decide +kernel

end Verif.Convert
