import Verif.Convert.PlaceProps
import Verif.Convert.LookRunProps

/-! C111 for the segments of a resequencer. -/
namespace Verif.Convert

open Verif.Doc hiding Name
open Verif.Style Verif.Time Verif.Node
open Verif.SegHead (HDoc Held Placed Extras Frame Spot extractPlaced spotsBy)

/-- `extractWhole` with places. -/
def extractWholeP (docs : Seq.Doc → Placed) (discard : Bool) (q : Seq.State) (lo hi : Int) : Option (Option Placed) × Seq.State :=
  match extractPlaced q docs (some lo) (some hi) with
  | none => (none, q)
  | some out =>
    if discard then
      match (Seq.lookupRange q.timeline (some lo) (some hi)).getLast? with
      | none => (some out, q)
      | some d =>
        match Seq.discardBefore q d with
        | none => (none, q)
        | some q' => (some out, q')
    else (some out, q)

/-- What the encoder's output for a segment shows at media time `u`, and where; see `segPieces`. -/
def segSpots (m : Media) (pr : Rat → List Char) (g : RSeg (Option Placed)) (u : Int) : List DSpot :=
  (g.doc.bind (encodeP m pr)).elim [] (fun d => d.spotsAt u)

theorem extractWholeP_discards (docs : Seq.Doc → Placed) (discard : Bool) : Discards (extractWholeP docs discard) := by
  intro q lo hi
  unfold extractWholeP
  cases extractPlaced q docs (some lo) (some hi) with
  | none => exact .inl rfl
  | some out =>
    simp only
    cases discard with
    | false => exact .inl rfl
    | true =>
      rw [if_pos rfl]
      cases hl : (Seq.lookupRange q.timeline (some lo) (some hi)).getLast? with
      | none => exact .inl rfl
      | some d =>
        simp only
        cases hd : Seq.discardBefore q d with
        | none => exact .inl rfl
        | some q' => exact .inr ⟨d, rfl, hd⟩

theorem extractWholeP_emits {docs : Seq.Doc → Placed} {discard : Bool} {len : Int} {s : RState} {q : Seq.State}
    (hq : s.cons.seq = some (some q)) {seg : RSeg (Option Placed)} (hseg : (reseq (extractWholeP docs discard) len s .tick).2 = some seg) :
    ∃ o, extractPlaced q docs (some s.lastEnd) (some (s.lastEnd + len)) = some o ∧
      seg = ⟨s.counter, s.lastEnd, s.lastEnd + len, o⟩ := by
  unfold reseq extractWholeP at hseg
  rw [hq] at hseg
  simp only at hseg
  cases hx : extractPlaced q docs (some s.lastEnd) (some (s.lastEnd + len)) with
  | none => rw [hx] at hseg; simp at hseg
  | some o =>
    refine ⟨o, rfl, ?_⟩
    rw [hx] at hseg
    simp only at hseg
    cases discard with
    | false => simpa using hseg.symm
    | true =>
      simp only [if_true] at hseg
      cases hl : (Seq.lookupRange q.timeline (some s.lastEnd) (some (s.lastEnd + len))).getLast? with
      | none => rw [hl] at hseg; simpa using hseg.symm
      | some d =>
        rw [hl] at hseg
        simp only at hseg
        cases hd : Seq.discardBefore q d with
        | none => rw [hd] at hseg; simp at hseg
        | some q' => rw [hd] at hseg; simpa using hseg.symm

/-- **C111** (partial), a resequencer: for every course of events at a resequencer behind which an encoder stands: at every media time
that the segments emitted so far cover, the EBU-TT-D documents made of them, played together, show each piece of content of the
document that was active at the corresponding instant, when the segment with that instant was extracted, in the part of the picture
where that document shows it, arranged the same way; nothing if none was active, and nothing at other media times.

Missing: what `C111_sequence_place_partial` asks of the documents, for those held in the course of the run, and that all segments can be
encoded. -/
theorem C111_whole_run_partial {docs : Seq.Doc → Placed} {discard : Bool} {start len : Int} (hl : 0 < len)
    (hms : start % 1000 = 0 ∧ len % 1000 = 0) (evs : List REv)
    (hrun : ∀ k, ∃ log, RReach (extractWholeP docs discard) start len
      (runR (extractWholeP docs discard) len { lastEnd := start } (evs.take k)).1 log)
    (m : Media) (hrd : m.rd.Accurate) (hz0 : 0 ≤ m.zero) (hzms : m.base = .clock → m.zero % 1000 = 0)
    (hz : m.base = .clock → m.zero ≤ start) (pr : Rat → List Char) (hpr : Function.Injective pr)
    (segs : List (RSeg (Option Placed)))
    (hsegs : segs = (runR (extractWholeP docs discard) len { lastEnd := start } evs).2)
    (hdocs : ∀ k q, (runR (extractWholeP docs discard) len { lastEnd := start } (evs.take k)).1.cons.seq = some (some q) →
      (∀ d ∈ q.docs, (docs d).Ok ∧ Held (docs d).doc d (start + segs.length * len) ∧ flat (docs d).doc.body = true ∧
        Flat (docs d).doc.head ∧ (docs d).doc.base = m.base) ∧
      ∀ d ∈ q.docs, ∀ d' ∈ q.docs, (docs d).doc.head.geo = (docs d').doc.head.geo ∧ (docs d).cells = (docs d').cells)
    (henc : ∀ g ∈ segs, ∀ o, g.doc = some o → (encodeP m pr o).isSome = true) (u : Int) (hu : 0 ≤ u) :
    (start ≤ u + m.shift ∧ u + m.shift < start + segs.length * len →
      ∃ k st q, evs[k]? = some .tick ∧ st = (runR (extractWholeP docs discard) len { lastEnd := start } (evs.take k)).1 ∧
        st.lastEnd ≤ u + m.shift ∧ u + m.shift < st.lastEnd + len ∧ st.cons.seq = some (some q) ∧
        (∀ a, Seq.ActiveAt q a (u + m.shift) → List.Forall₂ SameSpot ((docs a).spotsAt (u + m.shift))
          ((segs.map (fun g => segSpots m pr g u)).flatten)) ∧
        ((∀ a, ¬ Seq.ActiveAt q a (u + m.shift)) → (segs.map (fun g => segSpots m pr g u)).flatten = [])) ∧
    (¬(start ≤ u + m.shift ∧ u + m.shift < start + segs.length * len) →
      (segs.map (fun g => segSpots m pr g u)).flatten = []) := by
  have hone : ∀ k g, g ∈ segs → start ≤ g.lo ∧ g.hi ≤ start + segs.length * len →
      (reseq (extractWholeP docs discard) len (runR (extractWholeP docs discard) len { lastEnd := start } (evs.take k)).1 .tick).2 = some g →
      ∃ q, (runR (extractWholeP docs discard) len { lastEnd := start } (evs.take k)).1.cons.seq = some (some q) ∧
        g.lo = (runR (extractWholeP docs discard) len { lastEnd := start } (evs.take k)).1.lastEnd ∧ g.hi = g.lo + len ∧
        (g.lo ≤ u + m.shift ∧ u + m.shift < g.hi →
          (∀ a, Seq.ActiveAt q a (u + m.shift) →
            List.Forall₂ SameSpot ((docs a).spotsAt (u + m.shift)) (segSpots m pr g u)) ∧
          ((∀ a, ¬ Seq.ActiveAt q a (u + m.shift)) → segSpots m pr g u = [])) ∧
        (¬(g.lo ≤ u + m.shift ∧ u + m.shift < g.hi) → segSpots m pr g u = []) := by
    intro k g hg hb htick
    obtain ⟨log, hr⟩ := hrun k
    have hdk := hdocs k
    generalize (runR (extractWholeP docs discard) len { lastEnd := start } (evs.take k)).1 = st at *
    obtain ⟨q, hq⟩ := tick_seq htick
    obtain ⟨o, ho, hgo⟩ := extractWholeP_emits hq htick
    have hlo : g.lo = st.lastEnd := by rw [hgo]
    have hhi : g.hi = st.lastEnd + len := by rw [hgo]
    have hdoc : g.doc = o := by rw [hgo]
    obtain ⟨hd, hgeo⟩ := hdk q hq
    obtain ⟨n, hn⟩ := hr.window
    have hnl : 0 ≤ (n : Int) * len := Int.mul_nonneg (by omega) (by omega)
    have hmod : ((n : Int) * len) % 1000 = 0 := by
      rw [Int.mul_emod, hms.2]; simp
    obtain ⟨cfg, agid, l, hreach, _⟩ := RReach.seqOf (extractWholeP_discards docs discard) (by omega) hr q hq
    have a1 : ∀ b, some st.lastEnd = some b → b % 1000 = 0 := by intro b hb; injection hb with hb; omega
    have a2 : ∀ e, some (st.lastEnd + len) = some e → e ≤ st.lastEnd + len ∧ e % 1000 = 0 := by intro e he; injection he with he; omega
    have a3 : ∀ b e, some st.lastEnd = some b → some (st.lastEnd + len) = some e → b ≤ e := by
      intro b e hb he; injection hb with hb; injection he with he; omega
    have a4 : some (st.lastEnd + len) = none → ∀ d ∈ q.docs, ∃ e, Seq.resolvedEnd q d = some (some e) ∧ e ≤ st.lastEnd + len := by
      intro hc; simp at hc
    have a5 : ∀ d ∈ q.docs, Held (docs d).doc d (st.lastEnd + len) := fun d hdm => held_mono (hd d hdm).2.1 (by omega)
    have a6 : ∀ d ∈ q.docs, (docs d).Ok := fun d hdm => (hd d hdm).1
    have hwin : Win.at ⟨some st.lastEnd, some (st.lastEnd + len)⟩ (u + m.shift) = true ↔ g.lo ≤ u + m.shift ∧ u + m.shift < g.hi := by
      simp only [Win.at, Bool.and_eq_true, decide_eq_true_eq]
      rw [hlo, hhi]
    refine ⟨q, hq, hlo, by omega, ?_⟩
    cases o with
    | none =>
      have hnil : segSpots m pr g u = [] := by
        unfold segSpots
        rw [hdoc]; rfl
      obtain ⟨out, hout, hshow⟩ := SegHead.C111_resegmented_place_partial hreach docs a6 _ _ _ a1 a2 a3 a4 a5 hgeo
      rw [ho] at hout
      cases hout
      rw [hnil]
      refine ⟨fun hw => ⟨fun a ha => ?_, fun _ => rfl⟩, fun _ => rfl⟩
      have := ((hshow (u + m.shift)).1 (hwin.mpr hw)).1 a ha
      rw [← this]
      exact .nil
    | some o =>
      obtain ⟨d, hd'⟩ := Option.isSome_iff_exists.mp (henc g hg o hdoc)
      have hp : segSpots m pr g u = d.spotsAt u := by
        unfold segSpots
        rw [hdoc]
        simp [hd']
      rw [hp]
      have := C111_sequence_place_partial hreach docs a6 _ _ _ a1 a2 a3 a4 a5 hgeo (fun d hdm => ⟨(hd d hdm).2.2.1, (hd d hdm).2.2.2.1⟩)
        m hrd hz0 hzms (fun d hdm => (hd d hdm).2.2.2.2) (fun hc => ⟨_, rfl, by have := hz hc; omega⟩) pr hpr o ho d hd' u hu
      refine ⟨fun hw => this.1 (hwin.mpr hw), fun hw => this.2 ?_⟩
      rw [← Bool.not_eq_true]
      exact fun hc => hw (hwin.mp hc)
  obtain ⟨h1, h2⟩ := run_one hl evs segs hsegs (fun g => segSpots m pr g u) (u + m.shift) (by
    intro g hg hb hw
    obtain ⟨k, _, htick⟩ := runR_emits (extractWholeP docs discard) len evs { lastEnd := start } g (by rw [← hsegs]; exact hg)
    obtain ⟨q, _, _, _, _, h⟩ := hone k g hg hb htick
    exact h hw)
  refine ⟨fun hr => ?_, h2⟩
  obtain ⟨k, g, hg, b1, b2, b3, b4, hk, htick, hflat⟩ := h1 hr
  obtain ⟨q, hq, hlo, hhi, h3, _⟩ := hone k g hg ⟨b1, b2⟩ htick
  rw [hflat]
  exact ⟨k, _, q, hk, rfl, by omega, by omega, hq, h3 ⟨b3, b4⟩⟩

/-! ### Example: two documents, of which the second replaces the first at 5 s; segments from 1 s on, of 5 s each -/

/-- The segments of the example. -/
def exPlacedSegs : List (RSeg (Option Placed)) := (runR (extractWholeP SegHead.exPlaced true) 5000000 { lastEnd := 1000000 } exEvents).2

set_option synthInstance.maxSize 1000 in
/-- The hypotheses of `C111_whole_run_partial` hold, and the two EBU-TT-D documents played together show the two live documents, the first
in the region that is given in cells. -/
example : (∀ k, ∃ log, RReach (extractWholeP SegHead.exPlaced true) 1000000 5000000
      (runR (extractWholeP SegHead.exPlaced true) 5000000 { lastEnd := 1000000 } (exEvents.take k)).1 log) ∧
    (∀ k q, (runR (extractWholeP SegHead.exPlaced true) 5000000 { lastEnd := 1000000 } (exEvents.take k)).1.cons.seq = some (some q) →
      (∀ d ∈ q.docs, (SegHead.exPlaced d).Ok ∧ Held (SegHead.exPlaced d).doc d (1000000 + exPlacedSegs.length * 5000000) ∧
        flat (SegHead.exPlaced d).doc.body = true ∧ Flat (SegHead.exPlaced d).doc.head ∧ (SegHead.exPlaced d).doc.base = exMediaM.base) ∧
      ∀ d ∈ q.docs, ∀ d' ∈ q.docs, (SegHead.exPlaced d).doc.head.geo = (SegHead.exPlaced d').doc.head.geo ∧
        (SegHead.exPlaced d).cells = (SegHead.exPlaced d').cells) ∧
    exPlacedSegs.length = 2 ∧
    (∀ g ∈ exPlacedSegs, ∀ o, g.doc = some o → (encodeP exMediaM exPr o).isSome = true) ∧
    [999999, 4999999, 6000000].map (fun u => (exPlacedSegs.map (fun g => segSpots exMediaM exPr g u)).flatten) =
      [[], [⟨[.text "one".toList], some ⟨some ((0, 3/4), (1, 1/4)), some (SegHead.exFrame "r".toList).extras, none⟩⟩],
        [⟨[.text "two".toList], some ⟨some ((1/10, 1/5), (4/5, 1/10)), some (SegHead.exFrame "q".toList).extras, none⟩⟩]] := by
  have hlen : exPlacedSegs.length = 2 := by decide +kernel
  refine ⟨exEvents_any _, ?_, hlen, ?_, by decide +kernel⟩
  · have hall : ∀ k, ((runR (extractWholeP SegHead.exPlaced true) 5000000 { lastEnd := 1000000 } (exEvents.take k)).1.cons.seq.getD none).all
        (fun q => q.docs.all (fun d => Doc.exHeld.contains d)) = true := by
      intro k
      match k with
      | 0 => decide +kernel
      | 1 => decide +kernel
      | 2 => decide +kernel
      | 3 => decide +kernel
      | n + 4 =>
        have : exEvents.take (n + 4) = exEvents := List.take_of_length_le (by simp [exEvents])
        rw [this]
        decide +kernel
    intro k q hq
    have hm : ∀ d ∈ q.docs, d ∈ Doc.exHeld := by
      intro d hd
      have := hall k
      rw [hq] at this
      simp only [Option.getD_some, Option.all_some, List.all_eq_true] at this
      simpa using this d hd
    refine ⟨fun d hd => ?_, fun d hd d' hd' => ⟨?_, rfl⟩⟩
    · obtain ⟨a, b, c, e, _⟩ := exWhole_facts (hm d hd)
      exact ⟨SegHead.placed_ok _ _ _, held_mono a (by rw [hlen]; decide), b, c, e⟩
    · exact (exWhole_facts (hm d hd)).2.2.2.2.trans (exWhole_facts (hm d' hd')).2.2.2.2.symm
  · have : exPlacedSegs.all (fun g => g.doc.all (fun o => (encodeP exMediaM exPr o).isSome)) = true := by decide +kernel
    intro g hg o ho
    have := List.all_eq_true.mp this g hg
    rw [ho] at this
    exact this

end Verif.Convert
