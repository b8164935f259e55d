import Verif.Convert.LookChainProps
import Verif.Convert.ChainProps

/-! A resequencer of whole documents: its extraction, and lemmas about its runs. -/
namespace Verif.Convert

open Verif.Doc hiding Name
open Verif.Style Verif.Time Verif.Node
open Verif.SegHead (HDoc extractFull)

/-- `extract_segment(begin, end, discard=...)` (documents/ebutt3.py:956-1012) of whole documents, with the discarding at its end, as
`Node.extract` has it for documents without their heads.  Simplification: if `discard_before` raises, the sequence is taken to be unchanged. -/
def extractWhole (docs : Seq.Doc → HDoc) (discard : Bool) (q : Seq.State) (lo hi : Int) : Option (Option HDoc) × Seq.State :=
  match extractFull q docs (some lo) (some hi) with
  | none => (none, q)
  | some out =>
    if discard then
      match (Seq.lookupRange q.timeline (some lo) (some hi)).getLast? with
      | none => (some out, q)
      | some d =>
        match Seq.discardBefore q d with
        | none => (none, q)
        | some q' => (some out, q')
    else (some out, q)

/-- What the encoder's output for a segment shows at media time `u`: a segment without document is an empty document, which has
nothing to show; nothing is put out if the document cannot be encoded (node/encoder.py:35-48 raises). -/
def segPieces (m : Media) (pr : Rat → List Char) (res : Rat × Rat) (place : Name → List Char × List Char) (g : RSeg (Option HDoc))
    (u : Int) : List DPiece :=
  (g.doc.bind (encodeH m pr res place)).elim [] (fun d => dPiecesAt d u)

/-- What an extraction does to the sequence: nothing, or what comes before the last document found is discarded. -/
def Discards {β : Type} (ex : Seq.State → Int → Int → Option β × Seq.State) : Prop :=
  ∀ q lo hi, (ex q lo hi).2 = q ∨
    ∃ d, (Seq.lookupRange q.timeline (some lo) (some hi)).getLast? = some d ∧ Seq.discardBefore q d = some (ex q lo hi).2

theorem extractWhole_discards (docs : Seq.Doc → HDoc) (discard : Bool) : Discards (extractWhole docs discard) := by
  intro q lo hi
  unfold extractWhole
  cases extractFull q docs (some lo) (some hi) with
  | none => exact .inl rfl
  | some out =>
    simp only
    cases discard with
    | false => exact .inl rfl
    | true =>
      rw [if_pos rfl]
      cases hl : (Seq.lookupRange q.timeline (some lo) (some hi)).getLast? with
      | none => exact .inl rfl
      | some d =>
        simp only
        cases hd : Seq.discardBefore q d with
        | none => exact .inl rfl
        | some q' => exact .inr ⟨d, rfl, hd⟩

/-- The resequencer's sequence is in a reachable state. -/
theorem RReach.seqOf {β : Type} {ex : Seq.State → Int → Int → Option β × Seq.State} (hex : Discards ex) {start len : Int} (hl : 0 ≤ len)
    {s : RState} {log : List Seq.Doc} (h : RReach ex start len s log) :
    ∀ q, s.cons.seq = some (some q) → ∃ cfg agid l, Seq.Reach cfg agid q l ∧ ∀ x ∈ l, x ∈ log := by
  induction h with
  | init => intro q hq; simp at hq
  | @deliver s log now d hr hwt hnew hint ih =>
    intro q hq
    simp only [reseq, consume] at hq
    by_cases hs : s.cons.first.getD d.doc.seqId ≠ d.doc.seqId
    · rw [if_pos hs] at hq
      obtain ⟨cfg, agid, l, h1, h2⟩ := ih q hq
      exact ⟨cfg, agid, l, h1, fun x hx => List.mem_cons_of_mem _ (h2 x hx)⟩
    · rw [if_neg hs] at hq
      simp only [consume, if_neg hs] at hint
      cases hst : s.cons.seq.getD (newSeq d.doc) with
      | none => rw [hst] at hq; simp at hq
      | some st =>
        rw [hst] at hq hint
        simp only [Option.some.injEq] at hq
        have hint' := hint _ rfl
        have hreach : ∃ cfg agid l, Seq.Reach cfg agid st l ∧ ∀ x ∈ l, x ∈ log := by
          cases hsq : s.cons.seq with
          | some w =>
            rw [hsq, Option.getD_some] at hst
            exact ih st (by rw [hsq, hst])
          | none =>
            rw [hsq, Option.getD_none] at hst
            unfold newSeq at hst
            rw [Option.map_eq_some_iff] at hst
            obtain ⟨c, _, rfl⟩ := hst
            exact ⟨c, d.doc.agid, [], .init, by simp⟩
        obtain ⟨cfg, agid, l, h1, h2⟩ := hreach
        rw [received_eq] at hint' hq
        refine ⟨cfg, agid, arrived now d :: l, ?_, ?_⟩
        · rw [← hq]
          exact .add h1 hwt (fun hm => hnew (h2 _ hm)) hint'
        · intro x hx
          rw [List.mem_cons] at hx ⊢
          exact hx.imp id (h2 x)
  | msg now _ ih => exact ih
  | @tick s log hr ih =>
    intro q hq
    unfold reseq at hq
    cases hsq : s.cons.seq with
    | none => rw [hsq] at hq; simp [hsq] at hq
    | some w =>
      cases w with
      | none => rw [hsq] at hq; simp [hsq] at hq
      | some q0 =>
        rw [hsq] at hq
        simp only at hq
        have hq' : (ex q0 s.lastEnd (s.lastEnd + len)).2 = q := by
          cases hx : (ex q0 s.lastEnd (s.lastEnd + len)).1 <;> rw [hx] at hq <;> simpa using hq
        obtain ⟨cfg, agid, l, h1, h2⟩ := ih q0 hsq
        rcases hex q0 s.lastEnd (s.lastEnd + len) with hc | ⟨d, hd, hc⟩
        · rw [hc] at hq'; rw [← hq']; exact ⟨cfg, agid, l, h1, h2⟩
        · rw [hq'] at hc
          exact ⟨cfg, agid, l, .drop h1 (lookup_last h1 (by omega) hd).1 hc, h2⟩

theorem extractWhole_emits {docs : Seq.Doc → HDoc} {discard : Bool} {len : Int} {s : RState} {q : Seq.State}
    (hq : s.cons.seq = some (some q)) {seg : RSeg (Option HDoc)} (hseg : (reseq (extractWhole docs discard) len s .tick).2 = some seg) :
    ∃ o, extractFull q docs (some s.lastEnd) (some (s.lastEnd + len)) = some o ∧
      seg = ⟨s.counter, s.lastEnd, s.lastEnd + len, o⟩ := by
  unfold reseq extractWhole at hseg
  rw [hq] at hseg
  simp only at hseg
  cases hx : extractFull q docs (some s.lastEnd) (some (s.lastEnd + len)) with
  | none => rw [hx] at hseg; simp at hseg
  | some o =>
    refine ⟨o, rfl, ?_⟩
    rw [hx] at hseg
    simp only at hseg
    cases discard with
    | false => simpa using hseg.symm
    | true =>
      simp only [if_true] at hseg
      cases hl : (Seq.lookupRange q.timeline (some s.lastEnd) (some (s.lastEnd + len))).getLast? with
      | none => rw [hl] at hseg; simpa using hseg.symm
      | some d =>
        rw [hl] at hseg
        simp only at hseg
        cases hd : Seq.discardBefore q d with
        | none => rw [hd] at hseg; simp at hseg
        | some q' => rw [hd] at hseg; simpa using hseg.symm

/-- Of segments that show nothing outside their windows, at each instant that they cover one shows all there is. -/
theorem run_one {β γ : Type} {ex : Seq.State → Int → Int → Option β × Seq.State} {start len : Int} (hl : 0 < len) (evs : List REv)
    (segs : List (RSeg β)) (hsegs : segs = (runR ex len { lastEnd := start } evs).2) (play : RSeg β → List γ) (t : Int)
    (hout : ∀ g ∈ segs, start ≤ g.lo ∧ g.hi ≤ start + segs.length * len → ¬(g.lo ≤ t ∧ t < g.hi) → play g = []) :
    (start ≤ t ∧ t < start + segs.length * len →
      ∃ k, ∃ g ∈ segs, start ≤ g.lo ∧ g.hi ≤ start + segs.length * len ∧ g.lo ≤ t ∧ t < g.hi ∧ evs[k]? = some .tick ∧
        (reseq ex len (runR ex len { lastEnd := start } (evs.take k)).1 .tick).2 = some g ∧ (segs.map play).flatten = play g) ∧
    (¬(start ≤ t ∧ t < start + segs.length * len) → (segs.map play).flatten = []) := by
  have hp := C39_numbers_and_windows ex len { lastEnd := start } evs
  simp only [← hsegs] at hp
  have hget : ∀ i (hi : i < segs.length), segs[i].lo = start + i * len ∧ segs[i].hi = start + (i + 1) * len := by
    intro i hi
    have hm : (segs.map (fun g => (g.num, g.lo, g.hi)))[i]'(by simpa using hi) =
        ((List.range segs.length).map (plan 1 start len))[i]'(by simpa using hi) := by
      simp only [hp]
    simp only [List.getElem_map, List.getElem_range, plan, Prod.mk.injEq] at hm
    exact ⟨hm.2.1, hm.2.2⟩
  have hbounds : ∀ g ∈ segs, start ≤ g.lo ∧ g.hi ≤ start + segs.length * len := by
    intro g hg
    obtain ⟨i, hi, hgi⟩ := List.mem_iff_getElem.mp hg
    rw [← hgi, (hget i hi).1, (hget i hi).2]
    have e1 : 0 ≤ (i : Int) * len := Int.mul_nonneg (by omega) (by omega)
    have e2 : ((i : Int) + 1) * len ≤ segs.length * len := Int.mul_le_mul_of_nonneg_right (by omega) (by omega)
    omega
  have hdisj : segs.Pairwise (fun a b => ¬(decide (a.lo ≤ t ∧ t < a.hi) = true ∧ decide (b.lo ≤ t ∧ t < b.hi) = true)) := by
    rw [List.pairwise_iff_getElem]
    intro i j hi hj hij
    simp only [decide_eq_true_eq]
    rw [(hget i hi).1, (hget i hi).2, (hget j hj).1, (hget j hj).2]
    have : ((i : Int) + 1) * len ≤ j * len := Int.mul_le_mul_of_nonneg_right (by omega) (by omega)
    omega
  have hflat : (segs.map play).flatten = (segs.map (fun g => if decide (g.lo ≤ t ∧ t < g.hi) then play g else [])).flatten := by
    congr 1
    apply List.map_congr_left
    intro g hg
    by_cases hw : g.lo ≤ t ∧ t < g.hi
    · simp [hw]
    · rw [hout g hg (hbounds g hg) hw]
      simp
  constructor
  · rintro ⟨h1, h2⟩
    obtain ⟨i, hi, h3, h4⟩ := plan_partition start len hl segs.length t h1 h2
    have hin : segs[i].lo ≤ t ∧ t < segs[i].hi := by
      rw [(hget i hi).1, (hget i hi).2]; exact ⟨h3, h4⟩
    have hmem : segs[i] ∈ segs := List.getElem_mem hi
    have hb := hbounds _ hmem
    obtain ⟨k, hk, htick⟩ := runR_emits ex len evs { lastEnd := start } segs[i] (by rw [← hsegs]; exact hmem)
    refine ⟨k, segs[i], hmem, hb.1, hb.2, hin.1, hin.2, hk, htick, ?_⟩
    rw [hflat]
    refine flatten_one (fun g => decide (g.lo ≤ t ∧ t < g.hi)) play _ segs hdisj ?_ (fun _ => ⟨segs[i], hmem, by simpa using hin⟩)
    intro w hw hp
    obtain ⟨j, hj, rfl⟩ := List.mem_iff_getElem.mp hw
    rw [List.pairwise_iff_getElem] at hdisj
    rcases Nat.lt_trichotomy j i with hlt | heq | hgt
    · exact absurd ⟨hp, by simpa using hin⟩ (hdisj j i hj hi hlt)
    · simp [heq]
    · exact absurd ⟨by simpa using hin, hp⟩ (hdisj i j hi hj hgt)
  · intro hno
    rw [hflat]
    refine flatten_one (fun g => decide (g.lo ≤ t ∧ t < g.hi)) play _ segs hdisj ?_ (fun hx => absurd rfl hx)
    intro w hw hp
    exfalso
    have hb := hbounds w hw
    simp only [decide_eq_true_eq] at hp
    omega

theorem held_mono {h : HDoc} {d : Seq.Doc} {hi hi' : Int} (hh : SegHead.Held h d hi) (hle : hi' ≤ hi) : SegHead.Held h d hi' :=
  ⟨hh.regular, hh.styling, hh.layout, hh.base.imp id (fun hb => ⟨hb.1, by have := hb.2; omega⟩), hh.plainBody, hh.valid⟩

end Verif.Convert
