import Verif.Convert.ProducerChainProps
import Verif.Convert.TimerChainProps

/-! C101: a producer, a resequencer and an encoder with their timers, from the text to the EBU-TT-D documents. -/
namespace Verif.Convert

open Verif.Doc Verif.Time Verif.Node

theorem sent_by_timer {τ : Type} (rd : Reader) (hrd : rd.Accurate) (down : τ → Produced → τ × Bool) (hd : ∀ x p, (down x p).2 = true) (dn : τ)
    (ts : List Int) (ht : ∀ t ∈ ts, 0 ≤ t ∧ t < 359999000000) (toks : List (List (List Char))) (h0 : toks ≠ []) (hb : ∀ b ∈ toks, b ≠ [])
    (n : Nat) (hn : ts.length ≤ n) (last : Nat) :
    (runTP rd down ⟨⟨last, some (rounds n toks)⟩, dn, true⟩ ts).2 = (runP rd ⟨last, some (rounds n toks)⟩ ts).2.filterMap id := by
  obtain ⟨g1, g2⟩ := C101_producer_until rd down hd ts ⟨last, some (rounds n toks)⟩ dn
  have hon := (C101_producer_cycle_partial rd hrd down hd dn ts ht toks h0 hb n hn last).1
  have hsome := g2.1 hon
  rw [g1]
  congr 1
  generalize (runP rd ⟨last, some (rounds n toks)⟩ ts).2 = l at *
  clear g1 g2
  induction l with
  | nil => rfl
  | cons a l ih =>
    rw [List.takeWhile_cons_of_pos (Option.isSome_iff_ne_none.2 (hsome a List.mem_cons_self)),
      ih (fun r hr => hsome r (List.mem_cons_of_mem _ hr))]

/-- **C101**  A producer goes through a text over and over again, block by block, at every call of its timer (at the times `ts`); the documents that
arrive, in the order they were sent and any of them possibly lost, go to a resequencer, which at every call of its timer hands a segment
to the encoder in the same process.  Neither timer ever stops; there is a converted document for each call of the resequencer's timer after
the first document; and of the converted documents is read, at every media time they cover, the block of the last sent document that had
begun at that instant, of those that arrived before the segment with that instant was made, until its second is over.

The conditions are those of C100. -/
theorem C101_live_partial (rd : Reader) (hrd : rd.Accurate) (ts : List Int) (hts : ∀ t ∈ ts, 0 ≤ t ∧ t < 359999000000)
    (toks : List (List (List Char))) (h0 : toks ≠ []) (hbl : ∀ b ∈ toks, b ≠ [] ∧ ∀ l ∈ b, LineShown l = true)
    (n : Nat) (hn : ts.length ≤ n) (producer : Timed PState Unit × List Produced)
    (hprod : producer = runTP rd (fun _ _ => ((), true)) ⟨⟨0, some (rounds n toks)⟩, (), true⟩ ts)
    (sid : String) (got : List (Int × Produced)) (hgot : (got.map (·.2)).Sublist producer.2)
    (harr : ∀ x ∈ got, 0 ≤ x.1 ∧ ∀ now, ts[x.2.num - 1]? = some now →
      x.1 ≤ showFrom now ∨ x.1 % 1000 = 0 ∧ x.1 < showFrom now + 1000000)
    (evs : List REv) (hevs : deliveredAt evs = got.map (fun x => (x.1, liveDoc sid x.2)))
    (ref : Win → Name → Option Name) (styles regions : Win → Option (List Name))
    (href : ∀ w, (ref w "defaultStyle1".toList).isSome = true ∧ (ref w "bottomRegion".toList).isSome = true)
    (discard : Bool) (start len : Int) (hl : 0 < len) (hms : start % 1000 = 0 ∧ len % 1000 = 0)
    (m : Media) (hmr : m.rd.Accurate) (hmb : m.base = .clock) (hz0 : 0 ≤ m.zero ∧ m.zero % 1000 = 0 ∧ m.zero ≤ start)
    (fin : Int) (hfin : fin = start + ticksAfterFirst evs * len) (htop : fin < 100 * 3600000000)
    (ex : Seq.State → Int → Int → Option (Option SDoc) × Seq.State) (hex : ex = extract (liveSource rd ref styles regions got) discard)
    (run : Timed RState (List (Option (Node Att))) × List (RSeg (Option SDoc)))
    (hrun : run = runTR ex (toEncoder m) len ⟨{ lastEnd := start }, [], true⟩ evs) :
    producer.1.on = true ∧ run.1.on = true ∧ run.1.down.length = ticksAfterFirst evs ∧
    ∀ u, 0 ≤ u →
      (start ≤ u + m.zero ∧ u + m.zero < fin →
        ∃ k st, evs[k]? = some .tick ∧ st = (runTR ex (toEncoder m) len ⟨{ lastEnd := start }, [], true⟩ (evs.take k)).1.node ∧
          st.lastEnd ≤ u + m.zero ∧ u + m.zero < st.lastEnd + len ∧
          (∀ (i : Nat) lines now arr, toks[i % toks.length]? = some lines → ts[i]? = some now → (arr, i + 1) ∈ gotAt (evs.take k) →
            max (showFrom now) arr ≤ u + m.zero →
            (∀ (j : Nat) later arr', i < j → ts[j]? = some later → (arr', j + 1) ∈ gotAt (evs.take k) →
              u + m.zero < max (showFrom later) arr') →
            readOf run.1.down u = if u + m.zero < showFrom now + 1000000 then [(lines.map Item.text).intersperse .br] else []) ∧
          ((∀ (j : Nat) later arr, ts[j]? = some later → (arr, j + 1) ∈ gotAt (evs.take k) → u + m.zero < max (showFrom later) arr) →
            readOf run.1.down u = [])) ∧
      (¬(start ≤ u + m.zero ∧ u + m.zero < fin) → readOf run.1.down u = []) := by
  have hb : ∀ b ∈ toks, b ≠ [] := fun b h => (hbl b h).1
  have hcyc := C101_producer_cycle_partial rd hrd (fun (_ : Unit) _ => ((), true)) (fun _ _ => rfl) () ts hts toks h0 hb n hn 0
  rw [hprod, sent_by_timer rd hrd _ (fun _ _ => rfl) () ts hts toks h0 hb n hn 0] at hgot
  obtain ⟨⟨src0, hext, hin, hdocs⟩, hlen, hplay⟩ := live_run rd hrd ts hts (rounds n toks) (by
    intro b h
    simp only [rounds, List.mem_flatten, List.mem_replicate] at h
    obtain ⟨l, ⟨_, rfl⟩, h⟩ := h
    exact hbl b h) sid got hgot harr evs hevs ref styles regions href discard start len hl hms m hmr hmb hz0 fin hfin htop ex hex _ rfl
  obtain ⟨hon, hcount, hread, hsame⟩ := chain_same (discard := discard) hl hms evs hin m hmr hz0.1 (fun _ => hz0.2.1) (fun _ => hz0.2.2) fin hfin
    htop hdocs run (by rw [hrun, hext])
  rw [← hext] at hread hsame
  refine ⟨by rw [hprod]; exact hcyc.1, hon, hcount, fun u hu => ?_⟩
  rw [hread u]
  obtain ⟨h1, h2⟩ := hplay u hu
  refine ⟨fun hr => ?_, h2⟩
  obtain ⟨k, st, hk, hst, hlo, hhi, ha, hnone⟩ := h1 hr
  refine ⟨k, st, hk, by rw [hsame k]; exact hst, hlo, hhi, ?_, hnone⟩
  intro i lines now arr hti hnow
  refine ha i lines now arr ?_ hnow
  rw [getElem?_rounds toks n i ?_, hti]
  have hi : i < ts.length := (List.getElem?_eq_some_iff.1 hnow).1
  have := Nat.le_mul_of_pos_right n (List.length_pos_iff.2 h0)
  omega

/-- What a producer sends that goes through `exBlocks` over and over again. -/
def exCycled : List Produced :=
  (runTP exactReader (fun (_ : Unit) _ => ((), true)) ⟨⟨0, some (rounds 4 exBlocks)⟩, (), true⟩ [0, 1200000, 3000000, 4600000]).2

/-- The first and the fourth arrive; the fourth 200 ms late. -/
def exCaught : List (Int × Produced) := match exCycled with
  | [a, _, _, d] => [(200, a), (5800000, d)]
  | _ => []

def exRounds : List REv := match exCaught with
  | [a, d] => [.tick, .deliver a.1 (some (liveDoc "s" a.2)), .tick, .deliver d.1 (some (liveDoc "s" d.2)), .tick, .tick]
  | _ => []

/-- With the text played from its beginning again: the fourth document has the first block. -/
example : (exCaught.map (·.2)).Sublist exCycled ∧ exCaught.map (·.2.num) = [1, 4] ∧
    (∀ x ∈ exCaught, 0 ≤ x.1 ∧ ∀ now, ([0, 1200000, 3000000, 4600000] : List Int)[x.2.num - 1]? = some now →
      x.1 ≤ showFrom now ∨ x.1 % 1000 = 0 ∧ x.1 < showFrom now + 1000000) ∧
    deliveredAt exRounds = exCaught.map (fun x => (x.1, liveDoc "s" x.2)) ∧ ticksAfterFirst exRounds = 3 ∧
    [499999, 500000, 1499999, 1500000, 5299999, 5300000, 6099999, 6100000].map (readOf
        (runTR (extract (liveSource exactReader (fun _ n => some n) (fun _ => none) (fun _ => none) exCaught) true) (toEncoder exHalf) 2000000
          ⟨{ lastEnd := 1000000 }, [], true⟩ exRounds).1.down) =
      [[], [[.text ['a'], .br, .text ['b']]], [[.text ['a'], .br, .text ['b']]], [], [], [[.text ['a'], .br, .text ['b']]],
        [[.text ['a'], .br, .text ['b']]], []] := by
  have h : ∃ a b c d, exCycled = [a, b, c, d] ∧ a.num = 1 ∧ d.num = 4 := ⟨_, _, _, _, rfl, rfl, rfl⟩
  obtain ⟨a, b, c, d, h, ha, hd⟩ := h
  have hg : exCaught = [(200, a), (5800000, d)] := by unfold exCaught; rw [h]
  refine ⟨?_, by rw [hg]; simp [ha, hd], ?_, ?_, by decide +kernel, by decide +kernel⟩
  · rw [hg, h]
    exact .cons_cons _ (.cons _ (.cons _ (.cons_cons _ .slnil)))
  · rw [hg]
    intro x hx
    simp only [List.mem_cons, List.not_mem_nil, or_false] at hx
    rcases hx with rfl | rfl
    · simp [ha, showFrom, toMs]
    · simp [hd, showFrom, toMs]
  · unfold exRounds
    rw [hg]
    rfl

/-! ### Documents that arrive after their end -/

/-- A sequence whose only document ends before it begins cannot say when it ends. -/
theorem late_alone {c : Seq.Cfg} {d : Seq.Doc} (hc : clockOf d = some c) {e : Int} (he : d.cend = some e) (hlt : e < d.cbegin) :
    ∃ q, Seq.addDocument (Seq.State.init c d.agid) d = (q, .inserted) ∧
      ∀ src discard lo hi, lo ≤ d.cbegin → d.cbegin < hi → (extract src discard q lo hi).1 = none := by
  obtain ⟨r, hr, _⟩ := compat_of_fits (s := Seq.State.init c d.agid) (d := d) (g := d.agid) (clockOf_fits hc) (by simp [Seq.State.init]) rfl (.inr rfl)
  refine ⟨{ Seq.State.init c d.agid with agid := r, docs := [d], timeline := [⟨.fin, d, e⟩, Seq.beginEvent d], lastNum := max 0 d.num }, ?_, ?_⟩
  · have : Seq.insertOnTimeline [] d (some e) = [⟨.fin, d, e⟩, Seq.beginEvent d] := by
      simp [Seq.insertOnTimeline, Seq.insertEv, Seq.beginEvent, hlt]
    unfold Seq.addDocument
    rw [hr]
    simp [Seq.State.init, Seq.insertOrDiscard, Seq.scanBack, Seq.scanFwd, Seq.trimPrev, Seq.thisEnd, he, this, Seq.insertDoc,
      Seq.inserted]
  · intro src discard lo hi h1 h2
    have hlook : Seq.lookupRange [⟨.fin, d, e⟩, Seq.beginEvent d] (some lo) (some hi) = [d] := by
      have h3 : e ≤ hi := by omega
      have h4 : d.cbegin ≤ hi := by omega
      have h5 : d.cbegin ≠ hi := by omega
      by_cases h6 : e ≤ lo <;> simp [Seq.lookupRange, Seq.upTo, Seq.lookupLoop, Seq.beginEvent, h3, h4, h5, h6]
    have hend : ∀ s : Seq.State, s.gone = [] → s.docs = [d] → s.timeline = [⟨.fin, d, e⟩, Seq.beginEvent d] → Seq.resolvedEnd s d = none := by
      intro s g1 g2 g3
      have : ¬ d.cbegin ≤ e := by omega
      simp [Seq.resolvedEnd, Seq.goneEnd, Seq.seqResolvedEnd, Seq.locateEnd, g1, g2, g3, Seq.beginEvent, this, he]
    unfold extract extractSegment Seq.extractWindows
    simp only [hlook, Seq.windows]
    rw [hend _ rfl rfl rfl]
    simp

/-- The claim that a document that comes too late to be shown does no harm is false: if it arrives after its second, and the window of the
next segment contains the time of its arrival, the call of the timer raises, and there is never a segment, whatever documents come afterwards.
So it is for every text, time, window and continuation. -/
theorem C101_false_too_late {τ : Type} (rd : Reader) (hrd : rd.Accurate) (now : Int) (hnow : 0 ≤ now ∧ now < 359999000000) (lines : List (List Char))
    (hlines : lines ≠ []) (rest : List (List (List Char))) (last : Nat) (sid : String) (arr : Int) (hlate : showFrom now + 1000000 < arr)
    (src : Seq.Doc → Source) (discard : Bool) (start len : Int) (hwin : start ≤ arr ∧ arr < start + len) (down : τ → RSeg (Option SDoc) → τ × Bool) (dn : τ)
    (after : List REv) :
    ∃ p, (produce rd now ⟨last, some (lines :: rest)⟩).2 = some p ∧
      (consume arr {} (some (liveDoc sid p))).2 = .added .inserted ∧
      (runTR (extract src discard) down len ⟨{ lastEnd := start }, dn, true⟩ ([.deliver arr (some (liveDoc sid p)), .tick] ++ after)).2 = [] := by
  obtain ⟨tb, _, hlb⟩ := limitedClock_some rd hrd (now + 1000000) (by omega) (by omega)
  obtain ⟨td, _, hld⟩ := limitedClock_some rd hrd 1000000 (by omega) (by omega)
  obtain ⟨c, hc, _⟩ := interleave_some lines hlines
  have hp : produce rd now ⟨last, some (lines :: rest)⟩ =
      (⟨last + 1, some rest⟩, some ⟨last + 1, madeBody ⟨tb, toMs (now + 1000000)⟩ ⟨td, toMs 1000000⟩ c⟩) := by
    simp only [produce, nextLines, hc, hlb, hld]
    rfl
  refine ⟨_, by rw [hp], ?_⟩
  have hsf : showFrom now = toMs (now + 1000000) := rfl
  have hpos : 0 < toMs (now + 1000000) := by unfold toMs; omega
  have htimes : (liveDoc sid ⟨last + 1, madeBody ⟨tb, toMs (now + 1000000)⟩ ⟨td, toMs 1000000⟩ c⟩).times arr =
      (arr, some (showFrom now + 1000000)) := by
    simp only [liveDoc, validateDoc_eq]
    rw [made_times arr _ _ hpos (by simp [toMs]) hc]
    simp only [hsf, Prod.mk.injEq, Option.some.injEq]
    refine ⟨by omega, ?_⟩
    simp [toMs]
  generalize hpd : (⟨last + 1, madeBody ⟨tb, toMs (now + 1000000)⟩ ⟨td, toMs 1000000⟩ c⟩ : Produced) = p at *
  have hrec : (liveDoc sid p).received arr = { (liveDoc sid p).doc with cbegin := arr, cend := some (showFrom now + 1000000) } := by
    have : (liveDoc sid p).avail = none := rfl
    simp only [CDoc.received, this, Option.getD_none, CDoc.at, htimes]
  obtain ⟨q, hq, hex⟩ := late_alone (c := ⟨sid, "clock", some "local"⟩) (d := (liveDoc sid p).received arr) (by rw [hrec]; rfl)
    (e := showFrom now + 1000000) (by rw [hrec]) (by rw [hrec]; exact hlate)
  have hcons : consume arr {} (some (liveDoc sid p)) = ({ first := some sid, seq := some (some q) }, .added .inserted) := by
    have hag : ((liveDoc sid p).received arr).agid = none := by rw [hrec]; rfl
    rw [hag] at hq
    simp only [consume]
    have hn : newSeq (liveDoc sid p).doc = some (Seq.State.init ⟨sid, "clock", some "local"⟩ none) := rfl
    simp only [Option.getD_none, hn, hq, ne_eq, not_true_eq_false, if_false]
    rfl
  refine ⟨by rw [hcons], ?_⟩
  have hno := hex src discard start (start + len) (by rw [hrec]; exact hwin.1) (by rw [hrec]; exact hwin.2)
  have hstop : (runTR (extract src discard) down len ⟨{ lastEnd := start }, dn, true⟩ [.deliver arr (some (liveDoc sid p)), .tick]).2 = [] ∧
      (runTR (extract src discard) down len ⟨{ lastEnd := start }, dn, true⟩ [.deliver arr (some (liveDoc sid p)), .tick]).1.on = false := by
    simp only [runTR, timedR, reseq, hcons]
    simp [hno, noSegment]
  rw [(stops_after _ _ _ _ _ hstop.2 after).1]
  exact hstop.1

end Verif.Convert
