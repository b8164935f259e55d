import Verif.Convert.LookRun

/-! C107 for the segments of a resequencer. -/
namespace Verif.Convert

open Verif.Doc hiding Name
open Verif.Style Verif.Time Verif.Node
open Verif.SegHead (HDoc extractFull Held piecesOf)

/-- **C107** (partial), a resequencer: for every course of events at a resequencer behind which an encoder stands: at every media time
that the segments emitted so far cover, the EBU-TT-D documents made of them, played together, show exactly the pieces of content that
the document shows that was active at the corresponding instant when the segment with that instant was extracted, in the same order and
looking the same, and nothing if none was active; at other media times they show nothing.

Missing: what `C107_sequence_looks_alike_partial` asks of the documents, for those held in the course of the run, and that all segments can be
encoded. -/
theorem C107_whole_run_partial {docs : Seq.Doc → HDoc} {discard : Bool} {start len : Int} (hl : 0 < len)
    (hms : start % 1000 = 0 ∧ len % 1000 = 0) (evs : List REv)
    (hrun : ∀ k, ∃ log, RReach (extractWhole docs discard) start len
      (runR (extractWhole docs discard) len { lastEnd := start } (evs.take k)).1 log)
    (m : Media) (hrd : m.rd.Accurate) (hz0 : 0 ≤ m.zero) (hzms : m.base = .clock → m.zero % 1000 = 0)
    (hz : m.base = .clock → m.zero ≤ start) (pr : Rat → List Char) (hpr : Function.Injective pr) (res : Rat × Rat)
    (place : Name → List Char × List Char) (segs : List (RSeg (Option HDoc)))
    (hsegs : segs = (runR (extractWhole docs discard) len { lastEnd := start } evs).2)
    (hdocs : ∀ k q, (runR (extractWhole docs discard) len { lastEnd := start } (evs.take k)).1.cons.seq = some (some q) →
      (∀ d ∈ q.docs, Held (docs d) d (start + segs.length * len) ∧ flat (docs d).body = true ∧ Flat (docs d).head ∧ (docs d).base = m.base) ∧
      ∀ d ∈ q.docs, ∀ d' ∈ q.docs, (docs d).head.geo = (docs d').head.geo)
    (henc : ∀ g ∈ segs, ∀ o, g.doc = some o → (encodeH m pr res place o).isSome = true) (u : Int) (hu : 0 ≤ u) :
    (start ≤ u + m.shift ∧ u + m.shift < start + segs.length * len →
      ∃ k st q, evs[k]? = some .tick ∧ st = (runR (extractWhole docs discard) len { lastEnd := start } (evs.take k)).1 ∧
        st.lastEnd ≤ u + m.shift ∧ u + m.shift < st.lastEnd + len ∧ st.cons.seq = some (some q) ∧
        (∀ a, Seq.ActiveAt q a (u + m.shift) → List.Forall₂ (SameShown (some a.num)) (piecesOf (docs a) (u + m.shift))
          ((segs.map (fun g => segPieces m pr res place g u)).flatten)) ∧
        ((∀ a, ¬ Seq.ActiveAt q a (u + m.shift)) → (segs.map (fun g => segPieces m pr res place g u)).flatten = [])) ∧
    (¬(start ≤ u + m.shift ∧ u + m.shift < start + segs.length * len) →
      (segs.map (fun g => segPieces m pr res place g u)).flatten = []) := by
  have hone : ∀ k g, g ∈ segs → start ≤ g.lo ∧ g.hi ≤ start + segs.length * len →
      (reseq (extractWhole docs discard) len (runR (extractWhole docs discard) len { lastEnd := start } (evs.take k)).1 .tick).2 = some g →
      ∃ q, (runR (extractWhole docs discard) len { lastEnd := start } (evs.take k)).1.cons.seq = some (some q) ∧
        g.lo = (runR (extractWhole docs discard) len { lastEnd := start } (evs.take k)).1.lastEnd ∧ g.hi = g.lo + len ∧
        (g.lo ≤ u + m.shift ∧ u + m.shift < g.hi →
          (∀ a, Seq.ActiveAt q a (u + m.shift) →
            List.Forall₂ (SameShown (some a.num)) (piecesOf (docs a) (u + m.shift)) (segPieces m pr res place g u)) ∧
          ((∀ a, ¬ Seq.ActiveAt q a (u + m.shift)) → segPieces m pr res place g u = [])) ∧
        (¬(g.lo ≤ u + m.shift ∧ u + m.shift < g.hi) → segPieces m pr res place g u = []) := by
    intro k g hg hb htick
    obtain ⟨log, hr⟩ := hrun k
    have hdk := hdocs k
    generalize (runR (extractWhole docs discard) len { lastEnd := start } (evs.take k)).1 = st at *
    obtain ⟨q, hq⟩ := tick_seq htick
    obtain ⟨o, ho, hgo⟩ := extractWhole_emits hq htick
    have hlo : g.lo = st.lastEnd := by rw [hgo]
    have hhi : g.hi = st.lastEnd + len := by rw [hgo]
    have hdoc : g.doc = o := by rw [hgo]
    obtain ⟨hd, hgeo⟩ := hdk q hq
    obtain ⟨n, hn⟩ := hr.window
    have hnl : 0 ≤ (n : Int) * len := Int.mul_nonneg (by omega) (by omega)
    have hmod : ((n : Int) * len) % 1000 = 0 := by
      rw [Int.mul_emod, hms.2]; simp
    obtain ⟨cfg, agid, l, hreach, _⟩ := RReach.seqOf (extractWhole_discards docs discard) (by omega) hr q hq
    have a1 : ∀ b, some st.lastEnd = some b → b % 1000 = 0 := by intro b hb; injection hb with hb; omega
    have a2 : ∀ e, some (st.lastEnd + len) = some e → e ≤ st.lastEnd + len ∧ e % 1000 = 0 := by intro e he; injection he with he; omega
    have a3 : ∀ b e, some st.lastEnd = some b → some (st.lastEnd + len) = some e → b ≤ e := by
      intro b e hb he; injection hb with hb; injection he with he; omega
    have a4 : some (st.lastEnd + len) = none → ∀ d ∈ q.docs, ∃ e, Seq.resolvedEnd q d = some (some e) ∧ e ≤ st.lastEnd + len := by
      intro hc; simp at hc
    have a5 : ∀ d ∈ q.docs, Held (docs d) d (st.lastEnd + len) := fun d hdm => held_mono (hd d hdm).1 (by omega)
    have hwin : Win.at ⟨some st.lastEnd, some (st.lastEnd + len)⟩ (u + m.shift) = true ↔ g.lo ≤ u + m.shift ∧ u + m.shift < g.hi := by
      simp only [Win.at, Bool.and_eq_true, decide_eq_true_eq]
      rw [hlo, hhi]
    refine ⟨q, hq, hlo, by omega, ?_⟩
    cases o with
    | none =>
      have hnil : segPieces m pr res place g u = [] := by
        unfold segPieces
        rw [hdoc]; rfl
      obtain ⟨out, hout, _, hshow⟩ := SegHead.C59_resegmented_looks_alike_partial hreach docs _ _ _ a1 a2 a3 a4 a5 hgeo
      rw [ho] at hout
      cases hout
      rw [hnil]
      refine ⟨fun hw => ⟨fun a ha => ?_, fun _ => rfl⟩, fun _ => rfl⟩
      have := ((hshow (u + m.shift)).1 (hwin.mpr hw)).1 a ha
      change List.Forall₂ _ _ [] at this
      generalize piecesOf (docs a) (u + m.shift) = ps at *
      cases this
      exact .nil
    | some o =>
      obtain ⟨d, hd'⟩ := Option.isSome_iff_exists.mp (henc g hg o hdoc)
      have hp : segPieces m pr res place g u = dPiecesAt d u := by
        unfold segPieces
        rw [hdoc]
        simp [hd']
      rw [hp]
      have := C107_sequence_looks_alike_partial hreach docs _ _ _ a1 a2 a3 a4 a5 hgeo (fun d hdm => ⟨(hd d hdm).2.1, (hd d hdm).2.2.1⟩)
        m hrd hz0 hzms (fun d hdm => (hd d hdm).2.2.2) (fun hc => ⟨_, rfl, by have := hz hc; omega⟩) pr hpr res place o ho d hd' u hu
      refine ⟨fun hw => this.1 (hwin.mpr hw), fun hw => this.2 ?_⟩
      rw [← Bool.not_eq_true]
      exact fun hc => hw (hwin.mp hc)
  obtain ⟨h1, h2⟩ := run_one hl evs segs hsegs (fun g => segPieces m pr res place g u) (u + m.shift) (by
    intro g hg hb hw
    obtain ⟨k, _, htick⟩ := runR_emits (extractWhole docs discard) len evs { lastEnd := start } g (by rw [← hsegs]; exact hg)
    obtain ⟨q, _, _, _, _, h⟩ := hone k g hg hb htick
    exact h hw)
  refine ⟨fun hr => ?_, h2⟩
  obtain ⟨k, g, hg, b1, b2, b3, b4, hk, htick, hflat⟩ := h1 hr
  obtain ⟨q, hq, hlo, hhi, h3, _⟩ := hone k g hg ⟨b1, b2⟩ htick
  rw [hflat]
  exact ⟨k, _, q, hk, rfl, by omega, by omega, hq, h3 ⟨b3, b4⟩⟩

/-! ### Example: two documents, of which the second replaces the first at 5 s; segments from 1 s on, of 5 s each -/

theorem exWhole_facts {d : Seq.Doc} (hd : d ∈ Doc.exHeld) : Held (SegHead.exDocs d) d 12000000 ∧ flat (SegHead.exDocs d).body = true ∧
    Flat (SegHead.exDocs d).head ∧ (SegHead.exDocs d).base = exMediaM.base ∧ (SegHead.exDocs d).head.geo = ⟨1, 1⟩ := by
  simp only [Doc.exHeld, List.mem_cons, List.not_mem_nil, or_false] at hd
  have hreg : SegHead.Regular (SegHead.exDocs d) := by
    rcases hd with rfl | rfl <;>
    exact ⟨Time.exactReader_accurate, by decide, by decide, by decide, Doc.sane_of rfl (by decide) (by decide), by decide, by decide,
      by decide +kernel, by decide, by decide⟩
  rcases hd with rfl | rfl
  · refine ⟨⟨hreg, by decide, by decide, .inl (by decide), by rintro a kids he; cases he; rfl,
        SegHead.heldCheck_sound hreg (by decide +kernel)⟩, by decide +kernel, ?_, by decide +kernel, rfl⟩
    intro p hp; revert p; decide +kernel
  · refine ⟨⟨hreg, by decide, by decide, .inl (by decide), by rintro a kids he; cases he; rfl,
        SegHead.heldCheck_sound hreg (by decide +kernel)⟩, by decide +kernel, ?_, by decide +kernel, rfl⟩
    intro p hp; revert p; decide +kernel

theorem exEvents_any {β : Type} (ex : Seq.State → Int → Int → Option β × Seq.State) : ∀ k, ∃ log, RReach ex 1000000 5000000
    (runR ex 5000000 { lastEnd := 1000000 } (exEvents.take k)).1 log := by
  have hw : ∀ d ∈ Doc.exHeld, Seq.WellTimed (arrived 0 (exC d)) := by
    intro d hd
    simp only [Doc.exHeld, List.mem_cons, List.not_mem_nil, or_false] at hd
    rcases hd with rfl | rfl
    · exact ⟨by decide, by intro e he; simp [exC, arrived, Seq.mk] at he ⊢; omega⟩
    · exact ⟨by decide, by intro e he; simp [exC, arrived, Seq.mk] at he ⊢; omega⟩
  have h1 : RReach ex 1000000 5000000 _ _ :=
    .deliver 0 (exC (Seq.mk 1 1 1000000 (some 9000000))) .init (hw _ (by simp [Doc.exHeld])) (by simp) (by
      intro o ho
      have : (consume 0 ({ lastEnd := 1000000 } : RState).cons (some (exC (Seq.mk 1 1 1000000 (some 9000000))))).2 = .added .inserted := by
        rfl
      rw [this] at ho
      injection ho with ho
      subst ho; rfl)
  have h2 := RReach.deliver 0 (exC (Seq.mk 2 2 5000000 (some 8000000))) h1 (hw _ (by simp [Doc.exHeld])) (by decide) (by
      intro o ho
      have : (consume 0 (reseq ex 5000000 ({ lastEnd := 1000000 } : RState)
          (.deliver 0 (some (exC (Seq.mk 1 1 1000000 (some 9000000)))))).1.cons
          (some (exC (Seq.mk 2 2 5000000 (some 8000000))))).2 = .added .inserted := by
        rfl
      rw [this] at ho
      injection ho with ho
      subst ho; rfl)
  intro k
  match k with
  | 0 => exact ⟨_, .init⟩
  | 1 => exact ⟨_, h1⟩
  | 2 => exact ⟨_, h2⟩
  | 3 => exact ⟨_, h2.tick⟩
  | n + 4 =>
    have : exEvents.take (n + 4) = exEvents := List.take_of_length_le (by simp [exEvents])
    rw [this]
    exact ⟨_, h2.tick.tick⟩

/-- The segments of the example. -/
def exWholeSegs : List (RSeg (Option HDoc)) := (runR (extractWhole SegHead.exDocs true) 5000000 { lastEnd := 1000000 } exEvents).2

set_option synthInstance.maxSize 1000 in
/-- The hypotheses of `C107_whole_run_partial` hold, and the two EBU-TT-D documents played together show the two live documents. -/
example : (∀ k, ∃ log, RReach (extractWhole SegHead.exDocs true) 1000000 5000000
      (runR (extractWhole SegHead.exDocs true) 5000000 { lastEnd := 1000000 } (exEvents.take k)).1 log) ∧
    (∀ k q, (runR (extractWhole SegHead.exDocs true) 5000000 { lastEnd := 1000000 } (exEvents.take k)).1.cons.seq = some (some q) →
      ∀ d ∈ q.docs, d ∈ Doc.exHeld) ∧
    exWholeSegs.length = 2 ∧
    (∀ g ∈ exWholeSegs, ∀ o, g.doc = some o → (encodeH exMediaM exPr (40, 20) exPlace o).isSome = true) ∧
    exWholeSegs.map (fun g => (g.doc.bind (encodeH exMediaM exPr (40, 20) exPlace)).map (fun d =>
        [999999, 1000000, 4999999, 5000000, 5999999, 6000000, 7999999, 8000000].map (fun u =>
          (dPiecesAt d u).map (fun q => (q.content, q.value .color, q.region))))) =
      [some [[], [([.text "one".toList], some "#ff0000ff".toList, some "SEQ1.r".toList)],
          [([.text "one".toList], some "#ff0000ff".toList, some "SEQ1.r".toList)],
          [([.text "two".toList], some "#ff0000ff".toList, some "SEQ2.q".toList)],
          [([.text "two".toList], some "#ff0000ff".toList, some "SEQ2.q".toList)], [], [], []],
        some [[], [], [], [], [], [([.text "two".toList], some "#ff0000ff".toList, some "SEQ2.q".toList)],
          [([.text "two".toList], some "#ff0000ff".toList, some "SEQ2.q".toList)], []]] := by
  refine ⟨exEvents_any _, ?_, by decide +kernel, ?_, by decide +kernel⟩
  · have hall : ∀ k, ((runR (extractWhole SegHead.exDocs true) 5000000 { lastEnd := 1000000 } (exEvents.take k)).1.cons.seq.getD none).all
        (fun q => q.docs.all (fun d => Doc.exHeld.contains d)) = true := by
      intro k
      match k with
      | 0 => decide +kernel
      | 1 => decide +kernel
      | 2 => decide +kernel
      | 3 => decide +kernel
      | n + 4 =>
        have : exEvents.take (n + 4) = exEvents := List.take_of_length_le (by simp [exEvents])
        rw [this]
        decide +kernel
    intro k q hq d hd
    have := hall k
    rw [hq] at this
    simp only [Option.getD_some, Option.all_some, List.all_eq_true] at this
    simpa using this d hd
  · have : exWholeSegs.all (fun g => g.doc.all (fun o => (encodeH exMediaM exPr (40, 20) exPlace o).isSome)) = true := by decide +kernel
    intro g hg o ho
    have := List.all_eq_true.mp this g hg
    rw [ho] at this
    exact this

end Verif.Convert
