import Verif.Convert.LinesChainProps
import Verif.Node.FedProps

/-! C99, played: the whole way from documents in sequence order to the EBU-TT-D documents. -/
namespace Verif.Convert

open Verif.Doc Verif.Time Verif.Node

/-- **C99**  The documents of one sequence come to a resequencer each newer than those before, with messages and calls of the timer at
any moments in between, and its segments are converted to EBU-TT-D.  There is a segment for each call of the timer after the
first document; at every media time that the segments cover, of all their conversions played together is read exactly what the
newest document shows of each paragraph that had begun at that instant, of those delivered before the timer made the segment with
that instant, if it had not ended, and otherwise nothing; at other media times nothing is read.  For documents as in C97 and C98. -/
theorem C99_played_partial {src : Seq.Doc → Source} {discard : Bool} {cfg : Seq.Cfg} {g : Option String} {start len : Int} (hl : 0 < len)
    (hms : start % 1000 = 0 ∧ len % 1000 = 0) (evs : List REv) (hin : InSeq cfg g (deliveries evs))
    (m : Media) (hrd : m.rd.Accurate) (hz0 : 0 ≤ m.zero) (hzms : m.base = .clock → m.zero % 1000 = 0)
    (hz : m.base = .clock → m.zero ≤ start) (fin : Int) (hfin : fin = start + ticksAfterFirst evs * len) (htop : fin < 100 * 3600000000)
    (hdocs : ∀ d ∈ deliveries evs, (src d).Sound d fin ∧ lined true (src d).root = true ∧ flat (src d).root = true ∧
      (src d).base = m.base)
    (segs : List (RSeg (Option SDoc))) (hsegs : segs = (runR (extract src discard) len { lastEnd := start } evs).2) :
    segs.length = ticksAfterFirst evs ∧
    ∀ u, 0 ≤ u →
      (start ≤ u + m.shift ∧ u + m.shift < fin →
        ∃ k st, evs[k]? = some .tick ∧ deliveries (evs.take k) ≠ [] ∧ st = (runR (extract src discard) len { lastEnd := start } (evs.take k)).1 ∧
          st.lastEnd ≤ u + m.shift ∧ u + m.shift < st.lastEnd + len ∧
          (∀ a, Seq.Newest (deliveries (evs.take k)) (u + m.shift) a → Seq.EndsAfter a (u + m.shift) →
            linesAll m segs u = linesIn (src a) (u + m.shift)) ∧
          ((∀ a, Seq.Newest (deliveries (evs.take k)) (u + m.shift) a → ¬ Seq.EndsAfter a (u + m.shift)) → linesAll m segs u = [])) ∧
      (¬(start ≤ u + m.shift ∧ u + m.shift < fin) → linesAll m segs u = []) := by
  have hlen : segs.length = ticksAfterFirst evs := by rw [hsegs]; exact C99_segments (by omega) evs hin
  refine ⟨hlen, fun u hu => ?_⟩
  have hfin' : fin = start + segs.length * len := by rw [hfin, hlen]
  have hsub : ∀ k, ∀ d ∈ deliveries (evs.take k), d ∈ deliveries evs := by
    intro k d hd
    rw [← List.take_append_drop k evs, deliveries_append]
    exact List.mem_append_left _ hd
  obtain ⟨h1, h2⟩ := C98_whole_run_partial hl hms evs
    (fun k => ⟨_, (fed_run (start := start) (by omega) _ (take_inSeq hin k)).2⟩) m hrd hz0 hzms hz segs hsegs (by omega) (by
      intro k q hq d hd
      rw [← hfin']
      have hf := (fed_run (src := src) (discard := discard) (start := start) (Int.le_of_lt hl) _ (take_inSeq hin k)).1
      by_cases hds : deliveries (evs.take k) = []
      · rw [(hf.idle hds).2] at hq; cases hq
      · obtain ⟨q', _, _, _, hq', _, _, _, _, _, hs, _⟩ := hf.busy hds
        rw [hq] at hq'
        injection hq' with hq'; injection hq' with hq'; subst hq'
        exact hdocs d (hsub k d (hs d hd))) u hu
  rw [← hfin'] at h1 h2
  refine ⟨fun hr => ?_, h2⟩
  obtain ⟨k, st, q, hk, hst, hlo, hhi, hq, ha, hn⟩ := h1 hr
  have hact := fun a => C99_active (src := src) (discard := discard) (start := start) (Int.le_of_lt hl) _ (take_inSeq hin k) st hst q hq
    (u + m.shift) hlo a
  have hsome : deliveries (evs.take k) ≠ [] := by
    intro he
    have hf := (fed_run (src := src) (discard := discard) (start := start) (Int.le_of_lt hl) _ (take_inSeq hin k)).1
    rw [hst, (hf.idle he).2] at hq
    cases hq
  refine ⟨k, st, hk, hsome, hst, hlo, hhi, fun a h3 h4 => ha a ((hact a).2 ⟨h3, h4⟩), fun h3 => hn fun a h4 => ?_⟩
  obtain ⟨h5, h6⟩ := (hact a).1 h4
  exact h3 a h5 h6

/-- A timer call before anything came, a document, a segment, the next document, two more segments. -/
def exFed : List REv :=
  [.tick, .deliver 0 (some (exC (Seq.mk 1 1 1000000 (some 9000000)))), .tick,
   .deliver 0 (some (exC (Seq.mk 2 2 5000000 (some 8000000)))), .tick, .tick]

/-- The hypotheses of `C99_played_partial` hold.  The second document came after the first segment, with all before 4 s, was made, and
takes over at 5 s; when it ends at 8 s, nothing is read any more. -/
example : InSeq Seq.exCfg none (deliveries exFed) ∧ ticksAfterFirst exFed = 3 ∧
    (∀ d ∈ deliveries exFed, (exLineClock d).Sound d 10000000 ∧ lined true (exLineClock d).root = true ∧
      flat (exLineClock d).root = true ∧ (exLineClock d).base = exHalf.base) ∧
    [499999, 500000, 4499999, 4500000, 5499999, 5500000, 7499999, 7500000].map
        (linesAll exHalf (runR (extract exLineClock true) 3000000 { lastEnd := 1000000 } exFed).2) =
      [[], [[.text ['a'], .br, .text ['b']]], [[.text ['a'], .br, .text ['b']]], [[.text ['c'], .br, .text ['d']]],
        [[.text ['c'], .br, .text ['d']]], [[.text ['c'], .br, .text ['d']]], [[.text ['c'], .br, .text ['d']]], []] := by
  have hd : deliveries exFed = exHeld := by decide
  rw [hd]
  refine ⟨⟨by decide, ?_, by decide, by decide⟩, by decide, fun d hd => exLineClock_facts hd (by omega), by decide +kernel⟩
  intro d hd
  simp only [exHeld, List.mem_cons, List.not_mem_nil, or_false] at hd
  rcases hd with rfl | rfl <;> exact ⟨by simp [Seq.mk], by intro e he; simp [Seq.mk] at he ⊢; try omega⟩

end Verif.Convert
