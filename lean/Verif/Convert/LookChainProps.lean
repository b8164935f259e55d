import Verif.Convert.LookChain
import Verif.Convert.WholeCases

/-! C107 for documents that have been resegmented before they are encoded. -/
namespace Verif.Convert

open Verif.Doc hiding Name
open Verif.Style Verif.Time
open Verif.SegHead (mapN mapNL HDoc Full Piece piecesAt piecesOf newName Held Merged IsSeg SamePiece extractFull)

/-- Media time base. -/
def exMediaM : Media := { base := .media, zero := 0, rd := exactReader }

theorem sameShown_trans {n : Nat} {p p' : Piece} {q : DPiece} (h : SamePiece (some n) p p') (h' : SameShown none p' q) :
    SameShown (some n) p q := by
  obtain ⟨h1, h2, h3⟩ := h
  refine ⟨by rw [h'.content, h1], ?_, ?_, ?_, ?_, ?_⟩
  · intro x hx
    rw [h'.value x hx, h2.inh x hx]
  · rw [h'.background, h2.simple]
  · rw [h'.bidi, h2.simple]
  · obtain ⟨z, hz, hq⟩ := h'.height
    exact ⟨z, by rw [h2.fs]; exact hz, hq⟩
  · rw [h'.region, h3]
    cases p.region <;> rfl

/-- The document extracted from a sequence is made of segments of the documents held. -/
theorem extracted_merged {cfg : Seq.Cfg} {agid : Option String} {s : Seq.State} {log : List Seq.Doc}
    (h : Seq.Reach cfg agid s log) (docs : Seq.Doc → HDoc) (lo hi : Option Int) (top : Int)
    (hlo : ∀ b, lo = some b → b % 1000 = 0) (hhi : ∀ e, hi = some e → e ≤ top ∧ e % 1000 = 0)
    (hlh : ∀ b e, lo = some b → hi = some e → b ≤ e)
    (hopen : hi = none → ∀ d ∈ s.docs, ∃ e, Seq.resolvedEnd s d = some (some e) ∧ e ≤ top)
    (hheld : ∀ d ∈ s.docs, Held (docs d) d top)
    (hgeo : ∀ d ∈ s.docs, ∀ d' ∈ s.docs, (docs d).head.geo = (docs d').head.geo)
    (hf : ∀ d ∈ s.docs, flat (docs d).body = true ∧ Flat (docs d).head)
    (m : Media) (hbase : ∀ d ∈ s.docs, (docs d).base = m.base) (hz : m.base = .clock → ∃ b, lo = some b ∧ m.zero ≤ b)
    {o : HDoc} (ho : extractFull s docs lo hi = some (some o)) :
    ∃ segs, segs ≠ [] ∧ SegHead.Merged segs o ∧ ∀ sd ∈ segs, (SegReady m sd.body ∧ unnested sd.body = true ∧ Flat sd.head ∧ ∃ n, IsSeg n sd) ∧
      ∃ d ∈ s.docs, ∃ w, (docs d).extract w (some d.num) = .ok sd := by
  obtain ⟨ws, hws, hwd, hnums, hbd⟩ := held_windows h docs lo hi top hlo hhi hlh hopen hheld
  let f : Seq.Doc × Option Int × Option Int → Option HDoc := fun w => ((docs w.1).extract ⟨w.2.1, w.2.2⟩ (some w.1.num)).toOption
  have hseg : ∀ w ∈ ws, ∀ sd, f w = some sd → (SegReady m sd.body ∧ unnested sd.body = true ∧ Flat sd.head ∧ ∃ n, IsSeg n sd) ∧
      IsSeg w.1.num sd ∧ sd.head.geo = (docs w.1).head.geo ∧ (docs w.1).extract ⟨w.2.1, w.2.2⟩ (some w.1.num) = .ok sd := by
    intro w hw sd hsd
    have hh := hheld w.1 (hwd w hw)
    obtain ⟨a, ks, hb, hk⟩ := hh.regular.sane.body
    have hx : (docs w.1).extract ⟨w.2.1, w.2.2⟩ (some w.1.num) = .ok sd := by
      simp only [f] at hsd
      cases hx : (docs w.1).extract ⟨w.2.1, w.2.2⟩ (some w.1.num) with
      | error e => rw [hx] at hsd; cases hsd
      | ok s' => rw [hx] at hsd; cases hsd; rfl
    obtain ⟨i1, i2, _⟩ := SegHead.extract_isSeg hh.regular.shaped ⟨a, ks, hb, hk⟩ hh.plainBody (w := ⟨w.2.1, w.2.2⟩) hx
    obtain ⟨b1, ⟨we, b2, _, b3⟩, b4⟩ := hbd w hw
    refine ⟨⟨?_, extract_unnested ⟨a, ks, hb⟩ hh.regular.unnested hx, extract_flat (hf w.1 (hwd w hw)).2 hx, _, i1⟩, i1, i2, hx⟩
    rw [b2] at hx
    refine extract_ready hh (hf w.1 (hwd w hw)).1 b1 b3 m (hbase w.1 (hwd w hw)) ?_ hx
    intro hc
    obtain ⟨b, hb, hzb⟩ := hz hc
    obtain ⟨⟨b', hb', hle⟩, hwe⟩ := b4 b hb
    exact ⟨⟨b', hb', by omega⟩, by have := hwe we b2; omega⟩
  let nsegs : List (Nat × HDoc) := ws.filterMap (fun w => (f w).map (fun s => (w.1.num, s)))
  have hns : nsegs.map (·.2) = ws.filterMap f := by
    simp only [nsegs]
    rw [List.map_filterMap]
    congr 1
    funext w
    cases f w <;> rfl
  have hnn : (nsegs.map (·.1)).Nodup := by
    have : (nsegs.map (·.1)).Sublist (ws.map (·.1.num)) := by
      simp only [nsegs]
      exact SegHead.filterMap_fst f (fun w => w.1.num) ws
    exact this.nodup hnums
  have hnseg : ∀ p ∈ nsegs, (SegReady m p.2.body ∧ unnested p.2.body = true ∧ Flat p.2.head ∧ ∃ n, IsSeg n p.2) ∧ IsSeg p.1 p.2 ∧
      ∃ d ∈ s.docs, p.2.head.geo = (docs d).head.geo ∧ ∃ w, (docs d).extract w (some d.num) = .ok p.2 := by
    intro p hp
    simp only [nsegs, List.mem_filterMap, Option.map_eq_some_iff] at hp
    obtain ⟨w, hw, sd, hsd, rfl⟩ := hp
    obtain ⟨h1, h2, h3, h4⟩ := hseg w hw sd hsd
    exact ⟨h1, h2, ⟨w.1, hwd w hw, h3, _, h4⟩⟩
  have hex : extractFull s docs lo hi = (match SegHead.spliceH (nsegs.map (·.2)) with
      | none => some none
      | some d => if d.validate.isOk then some (some d) else none) := by
    rw [hns, extractFull, hws]
    rfl
  rw [hex] at ho
  cases hn : nsegs with
  | nil => rw [hn] at ho; simp [SegHead.spliceH] at ho
  | cons p ps =>
    rw [hn] at hnn hnseg ho
    obtain ⟨_, p1, ⟨d0, hd0, hpg, _⟩⟩ := hnseg p List.mem_cons_self
    simp only [List.map_cons, List.nodup_cons] at hnn
    have hm := (Merged.fold ps [p.1] [] [p.2] p.2 (Merged.one p1) ⟨fun x hx => ⟨p.1, by simp, p1.pre x hx⟩, by simp, p1.nodup⟩
      (by
        intro q hq hm
        rw [List.mem_singleton] at hm
        exact hnn.1 (hm ▸ List.mem_map_of_mem hq)) hnn.2 (fun q hq => (hnseg q (List.mem_cons_of_mem _ hq)).2.1)
      (by
        intro q hq
        obtain ⟨_, _, ⟨d1, hd1, hqg, _⟩⟩ := hnseg q (List.mem_cons_of_mem _ hq)
        rw [hqg, hpg]
        exact hgeo d1 hd1 d0 hd0)).1
    have hoe : o = ((ps.map (·.2)).foldl SegHead.mergeH ([], p.2)).2 := by
      change (if (((ps.map (fun q : Nat × HDoc => q.2)).foldl SegHead.mergeH ([], p.2)).2.validate.isOk) = true then
        some (some ((ps.map (fun q : Nat × HDoc => q.2)).foldl SegHead.mergeH ([], p.2)).2) else none) = some (some o) at ho
      split at ho
      · cases ho; rfl
      · cases ho
    rw [← hoe] at hm
    refine ⟨_, by simp, hm, ?_⟩
    intro s' hs'
    have : s' ∈ (p :: ps).map (·.2) := hs'
    obtain ⟨q, hq, rfl⟩ := List.mem_map.mp this
    obtain ⟨h1, _, d1, hd1, _, hx⟩ := hnseg q hq
    exact ⟨h1, d1, hd1, hx⟩

/-- The document extracted from a sequence, once encoded, shows what it showed before. -/
theorem extracted_encoded {cfg : Seq.Cfg} {agid : Option String} {s : Seq.State} {log : List Seq.Doc}
    (h : Seq.Reach cfg agid s log) (docs : Seq.Doc → HDoc) (lo hi : Option Int) (top : Int)
    (hlo : ∀ b, lo = some b → b % 1000 = 0) (hhi : ∀ e, hi = some e → e ≤ top ∧ e % 1000 = 0)
    (hlh : ∀ b e, lo = some b → hi = some e → b ≤ e)
    (hopen : hi = none → ∀ d ∈ s.docs, ∃ e, Seq.resolvedEnd s d = some (some e) ∧ e ≤ top)
    (hheld : ∀ d ∈ s.docs, Held (docs d) d top)
    (hgeo : ∀ d ∈ s.docs, ∀ d' ∈ s.docs, (docs d).head.geo = (docs d').head.geo)
    (hf : ∀ d ∈ s.docs, flat (docs d).body = true ∧ Flat (docs d).head)
    (m : Media) (hrd : m.rd.Accurate) (hz0 : 0 ≤ m.zero) (hms : m.base = .clock → m.zero % 1000 = 0)
    (hbase : ∀ d ∈ s.docs, (docs d).base = m.base) (hz : m.base = .clock → ∃ b, lo = some b ∧ m.zero ≤ b)
    (pr : Rat → List Char) (hpr : Function.Injective pr) (res : Rat × Rat) (place : Name → List Char × List Char)
    {o : HDoc} (ho : extractFull s docs lo hi = some (some o)) {d : DDoc} (hd : encodeH m pr res place o = some d) (u : Int) (hu : 0 ≤ u) :
    List.Forall₂ (SameShown none) (piecesOf o (u + m.shift)) (dPiecesAt d u) := by
  obtain ⟨segs, _, hm, hsegs⟩ := extracted_merged h docs lo hi top hlo hhi hlh hopen hheld hgeo hf m hbase hz ho
  have hshift : 0 ≤ m.shift := by unfold Media.shift; cases m.base <;> (simp; try exact hz0)
  by_cases hne : contentOf o.body = []
  · obtain ⟨a, ha, hk, _⟩ := hm.body.elem
    rw [hne] at ha
    obtain ⟨e1, e2⟩ := empty_pieces hd ha hk (u + m.shift) u
    rw [e1, e2]
    exact .nil
  · have henc := merged_encodable hm (m := m) (fun s' hs' => (hsegs s' hs').1) hne
    have := C107_encoded_looks_alike_partial m hrd hz0 hms pr hpr res place o henc d hd (u + m.shift) (by rw [hm.avail]; omega) (by omega)
    rwa [show u + m.shift - m.shift = u by omega] at this

/-- **C107** (partial), a sequence: of every window of every reachable sequence, the EBU-TT-D document made from the extracted document
shows, at every media time that corresponds to an instant of the window, exactly the pieces of content that the document active at
that instant shows, in the same order, each looking the same and in the region of the same name behind the prefix of that
document; nothing where none is active, and nothing at other media times.

Missing: what C59 and C86 ask of the held documents and the window; styles must not refer to styles (`C73_false_nested_styles`), and the
documents must lie within the structure EBU-TT-D has room for (`C86_false_nested`); of the look, multiRowAlign, padding and the width of
the font.  When the conversion succeeds at all is C76. -/
theorem C107_sequence_looks_alike_partial {cfg : Seq.Cfg} {agid : Option String} {s : Seq.State} {log : List Seq.Doc}
    (h : Seq.Reach cfg agid s log) (docs : Seq.Doc → HDoc) (lo hi : Option Int) (top : Int)
    (hlo : ∀ b, lo = some b → b % 1000 = 0) (hhi : ∀ e, hi = some e → e ≤ top ∧ e % 1000 = 0)
    (hlh : ∀ b e, lo = some b → hi = some e → b ≤ e)
    (hopen : hi = none → ∀ d ∈ s.docs, ∃ e, Seq.resolvedEnd s d = some (some e) ∧ e ≤ top)
    (hheld : ∀ d ∈ s.docs, Held (docs d) d top)
    (hgeo : ∀ d ∈ s.docs, ∀ d' ∈ s.docs, (docs d).head.geo = (docs d').head.geo)
    (hf : ∀ d ∈ s.docs, flat (docs d).body = true ∧ Flat (docs d).head)
    (m : Media) (hrd : m.rd.Accurate) (hz0 : 0 ≤ m.zero) (hms : m.base = .clock → m.zero % 1000 = 0)
    (hbase : ∀ d ∈ s.docs, (docs d).base = m.base) (hz : m.base = .clock → ∃ b, lo = some b ∧ m.zero ≤ b)
    (pr : Rat → List Char) (hpr : Function.Injective pr) (res : Rat × Rat) (place : Name → List Char × List Char)
    (o : HDoc) (ho : extractFull s docs lo hi = some (some o)) (d : DDoc) (hd : encodeH m pr res place o = some d) (u : Int) (hu : 0 ≤ u) :
    (Win.at ⟨lo, hi⟩ (u + m.shift) = true →
        (∀ a, Seq.ActiveAt s a (u + m.shift) → List.Forall₂ (SameShown (some a.num)) (piecesOf (docs a) (u + m.shift)) (dPiecesAt d u)) ∧
        ((∀ a, ¬ Seq.ActiveAt s a (u + m.shift)) → dPiecesAt d u = [])) ∧
      (Win.at ⟨lo, hi⟩ (u + m.shift) = false → dPiecesAt d u = []) := by
  have henc := extracted_encoded h docs lo hi top hlo hhi hlh hopen hheld hgeo hf m hrd hz0 hms hbase hz pr hpr res place ho hd u hu
  obtain ⟨out, hout, _, hshow⟩ := SegHead.C59_resegmented_looks_alike_partial h docs lo hi top hlo hhi hlh hopen hheld hgeo
  rw [ho] at hout
  cases hout
  obtain ⟨h1, h2⟩ := hshow (u + m.shift)
  have hnil : SegHead.piecesBy (some o) (u + m.shift) = [] → dPiecesAt d u = [] := by
    intro hp
    change piecesOf o (u + m.shift) = [] at hp
    rw [hp] at henc
    cases hq : dPiecesAt d u with
    | nil => rfl
    | cons a l => rw [hq] at henc; cases henc
  refine ⟨fun hw => ⟨fun a ha => ?_, fun hno => hnil ((h1 hw).2 hno)⟩, fun hw => hnil (h2 hw)⟩
  exact forall₂_trans (R := SamePiece (some a.num)) (S := SameShown none) (fun _ _ _ => sameShown_trans) ((h1 hw).1 a ha) henc

/-! ### Example: two documents, of which the second replaces the first at 5 s, resegmented from 2 s on and encoded -/

/-- What is known of the pieces: content, colour, height of the font, region. -/
def lookD (d : DDoc) (u : Int) : List (List Item × Option Val × Rat × Option Name) :=
  (dPiecesAt d u).map (fun q => (q.content, q.value .color, q.height, q.region))

def exExtracted : Option HDoc := (extractFull SegHead.exState SegHead.exDocs (some 2000000) (some 12000000)).join

/-- The held documents meet the further hypotheses of `C107_sequence_looks_alike_partial`; those of C59 are shown there. -/
example : SegHead.exState.docs = SegHead.exHeld ∧ (∀ d ∈ SegHead.exHeld, flat (SegHead.exDocs d).body = true ∧ Flat (SegHead.exDocs d).head ∧
      (SegHead.exDocs d).base = exMediaM.base) ∧ exMediaM.rd.Accurate ∧ Function.Injective exPr := by
  refine ⟨by decide +kernel, ?_, exactReader_accurate, exPr_injective⟩
  intro d hd
  simp only [SegHead.exHeld, List.mem_cons, List.not_mem_nil, or_false] at hd
  rcases hd with rfl | rfl
  · refine ⟨by decide +kernel, ?_, by decide +kernel⟩
    intro p hp; revert p; decide +kernel
  · refine ⟨by decide +kernel, ?_, by decide +kernel⟩
    intro p hp; revert p; decide +kernel

set_option synthInstance.maxSize 1000 in
/-- The extracted document is encoded, and looks as said. -/
example : (exExtracted.bind (encodeH exMediaM exPr (40, 20) exPlace)).map (fun d => [1999999, 2000000, 4999999, 5000000, 8000000].map (lookD d)) =
    some [[], [([.text "one".toList], some "#ff0000ff".toList, 1, some "SEQ1.r".toList)],
      [([.text "one".toList], some "#ff0000ff".toList, 1, some "SEQ1.r".toList)],
      [([.text "two".toList], some "#ff0000ff".toList, 1, some "SEQ2.q".toList)], []] := by decide +kernel

set_option synthInstance.maxSize 1000 in
/-- The first document can be encoded on its own. -/
example : Encodable exMediaM (SegHead.exDocs (Seq.mk 1 1 1000000 (some 9000000))) ∧
    (encodeH exMediaM exPr (40, 20) exPlace (SegHead.exDocs (Seq.mk 1 1 1000000 (some 9000000)))).map (fun d =>
      [999999, 1000000, 8999999, 9000000].map (lookD d)) =
      some [[], [([.text "one".toList], some "#ff0000ff".toList, 1, some "r".toList)],
        [([.text "one".toList], some "#ff0000ff".toList, 1, some "r".toList)], []] := by
  refine ⟨⟨⟨_, _, rfl, rfl, rfl⟩, by decide +kernel, by decide +kernel, ?_, ?_, by decide +kernel, by decide +kernel, by decide +kernel, by decide⟩,
    by decide +kernel⟩
  · intro p hp; revert p; decide +kernel
  · intro p hp; revert p; decide +kernel

end Verif.Convert
