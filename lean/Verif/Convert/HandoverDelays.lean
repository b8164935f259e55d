import Verif.Convert.HandoverDelay
import Verif.Convert.DelaysChain

/-! C103: authors, a handover node, several retiming delay nodes in a row, a resequencer and the EBU-TT-D encoder in one chain. -/
namespace Verif.Convert

open Verif.Doc Verif.Time Verif.Node

/-- **C103**  The chain of `C103_delayed_partial` with any number of retiming delay nodes in a row behind the handover node, each with a sequence
identifier of its own.  Of the converted documents is read, at every media time they cover, the text that the author in control gave for the
instant earlier by the sum of the delays.

Under the conditions of `C103_delayed_partial`, for the sum of the delays. -/
theorem C103_delays_partial (hcfg : HCfg) (evs : List HEv) (cfg : Seq.Cfg) (passed : List (NDoc Arriving))
    (hpassed : passed = passedOn hcfg (inputs evs)) (hnew : ∀ d ∈ passed, d.content.avail = none)
    (hclock : ∀ d ∈ passed, clockOf { d.toDoc with seqId := hcfg.outId } = some cfg)
    (hbase : ∀ d ∈ passed, d.timeBase = baseText d.content.source.base)
    (rd : Reader) (hrd : rd.Accurate) (c0 : Record.RNode) (cs : List Record.RNode) (hw : Record.Whole (c0 :: cs)) (hch : Record.chained c0.out cs)
    (δ : Int) (hsum : δ = ((c0 :: cs).map (·.delay)).sum) (hδ : 0 < δ) (hδ1 : δ < 360000000000)
    (hne : hcfg.outId ≠ c0.out ∧ hcfg.outId ≠ Record.lastOut c0.out cs)
    (m : Media) (hfit : ∀ d ∈ passed, Fit δ m.base (carry d) ∧ Copies ((carry d).late rd δ))
    (discard : Bool) (start len : Int) (hl : 0 < len) (hms : start % 1000 = 0 ∧ len % 1000 = 0) (hmrd : m.rd.Accurate) (hz0 : 0 ≤ m.zero)
    (hzms : m.base = .clock → m.zero % 1000 = 0) (hz : m.base = .clock → m.zero ≤ start)
    (fin : Int) (hfin : fin = start + timerCalls (between hcfg {} evs) * len) (htop : fin < 100 * 3600000000)
    (run : Timed RState (List (Option (Node Att))) × List (RSeg (Option SDoc)))
    (hrun : run = runTR (extract (sourceOf (fun x => x.late rd δ) (carried (between hcfg {} evs))) discard) (toEncoder m) len
      ⟨{ lastEnd := start }, [], true⟩ (behindDelays rd (Record.fresh (c0 :: cs)) (between hcfg {} evs))) :
    run.1.on = true ∧ run.1.down.length = timerCalls (between hcfg {} evs) ∧
    ∀ u t, 0 ≤ u → t = u + m.shift →
      (start ≤ t ∧ t < fin →
        ∃ k, evs[k]? = some .tick ∧ start + timerCalls (between hcfg {} (evs.take k)) * len ≤ t ∧
          t < start + timerCalls (between hcfg {} (evs.take k)) * len + len ∧
          (∀ (pre : List (NDoc Arriving)) (d : NDoc Arriving) (post : List (NDoc Arriving)),
            passedOn hcfg (inputs (evs.take k)) = pre ++ d :: post → earlierBegin δ d ≤ t - δ → (∀ y ∈ post, t - δ < earlierBegin δ y) →
            readOf run.1.down u = if ∀ e, earlierEnd δ d = some e → t - δ < e then linesIn (earlier δ d) (t - δ) else []) ∧
          ((∀ d ∈ passedOn hcfg (inputs (evs.take k)), t - δ < earlierBegin δ d) → readOf run.1.down u = [])) ∧
      (¬(start ≤ t ∧ t < fin) → readOf run.1.down u = []) := by
  have hsum' : δ = Record.sumOf (c0 :: cs) := by
    rw [hsum]
    clear hsum hδ hδ1 hfit hrun hw hch hne
    generalize c0 :: cs = l
    induction l with
    | nil => rfl
    | cons c l ih => simp only [List.map_cons, List.sum_cons, Record.sumOf, ih]
  have hδm : δ % 1000 = 0 := by rw [hsum']; exact (Record.sumOf_whole hw).2
  rw [behindDelays_one rd hrd c0 cs hw hch (between hcfg {} evs), ← hsum'] at hrun
  · have := C103_delayed_partial hcfg evs cfg passed hpassed hnew hclock hbase rd hrd δ hδ hδm hδ1 _ hne.2 m hfit discard start len hl hms hmrd
      hz0 hzms hz fin hfin htop _ rfl
    rw [hrun]
    exact this
  · intro x hx
    obtain ⟨d, n, hd, rfl⟩ := mem_between hx
    exact hne
  · intro x hx
    obtain ⟨d, n, hd, rfl⟩ := mem_between hx
    obtain ⟨_, a, kids, hb, _, _, hm, _⟩ := (fit_numbered (hcfg := hcfg) (n := n) (hfit d (by rw [hpassed]; exact hd)).1).steady
    rw [← hsum']
    exact .inr ⟨hδ1, Record.fits_movable _ _ hm⟩

/-- The hypotheses on the nodes hold for two nodes, and with the authors of the example of `C103_delayed_partial` the same is read as behind
one node with a delay of two seconds. -/
example : Record.Whole exTwo ∧ Record.chained "b" [⟨"n2", "c", 1500000⟩] ∧ (exTwo.map (·.delay)).sum = 2000000 ∧
    exGroup.outId ≠ "b" ∧ exGroup.outId ≠ Record.lastOut "b" [⟨"n2", "c", 1500000⟩] ∧
    [2499999, 2500000, 6499999, 6500000, 9499999, 9500000].map (readOf
        (runTR (extract (sourceOf (fun x => x.late exactReader 2000000) (carried (between exGroup {} exTakeoverLate))) true) (toEncoder exHalf)
          3000000 ⟨{ lastEnd := 3000000 }, [], true⟩
          (behindDelays exactReader (Record.fresh exTwo) (between exGroup {} exTakeoverLate))).1.down) =
      [[], [[.text ['a'], .br, .text ['b']]], [[.text ['a'], .br, .text ['b']]], [[.text ['c'], .br, .text ['d']]],
        [[.text ['c'], .br, .text ['d']]], []] := by
  refine ⟨?_, ⟨by decide, trivial⟩, by decide, by decide, by decide, by decide +kernel⟩
  intro c hc
  simp only [exTwo, List.mem_cons, List.not_mem_nil, or_false] at hc
  rcases hc with rfl | rfl <;> decide

end Verif.Convert
