import Verif.Convert.FedChainProps
import Verif.Node.TimerProps

/-! C101, the whole chain in one process: a resequencer with its timer that hands its segments to the EBU-TT-D encoder. -/
namespace Verif.Convert

open Verif.Doc Verif.Time Verif.Node

/-- The encoder as what a resequencer's segments are handed to by the direct carriage (carriage/direct.py:16-17, node/encoder.py:35-48):
the converted documents so far; an error in the conversion comes back out of `emit_data`.  What the encoder hands its documents to is taken
not to raise. -/
def toEncoder (m : Media) (outs : List (Option (Node Att))) (g : RSeg (Option SDoc)) : List (Option (Node Att)) × Bool :=
  match encode m g.doc with
  | .ok o => (outs ++ [o], true)
  | .error _ => (outs, false)

/-- Specification: all that is read at media time `u` of converted documents played together. -/
def readOf (outs : List (Option (Node Att))) (u : Int) : List (List Item) := outs.flatMap (fun o => linesPlayed o u)

theorem handed_encoder (m : Media) : ∀ (segs : List (RSeg (Option SDoc))) (outs : List (Option (Node Att))),
    (∀ g ∈ segs, ∃ o, encode m g.doc = .ok o) →
    (handed (toEncoder m) outs segs).length = outs.length + segs.length ∧
    ∀ u, readOf (handed (toEncoder m) outs segs) u = readOf outs u ++ linesAll m segs u
  | [], outs, _ => by simp [handed, linesAll]
  | g :: gs, outs, h => by
    obtain ⟨o, ho⟩ := h g List.mem_cons_self
    have hstep : (toEncoder m outs g).1 = outs ++ [o] := by simp [toEncoder, ho]
    obtain ⟨h1, h2⟩ := handed_encoder m gs (outs ++ [o]) (fun x hx => h x (List.mem_cons_of_mem _ hx))
    have hh : handed (toEncoder m) outs (g :: gs) = handed (toEncoder m) (outs ++ [o]) gs := by
      simp only [handed, List.foldl_cons, hstep]
    rw [hh]
    refine ⟨by rw [h1]; simp; omega, fun u => ?_⟩
    rw [h2 u]
    simp [readOf, linesAll, linesSeg, ho]

theorem raisesAt_take {β τ : Type} {ex : Seq.State → Int → Int → Option β × Seq.State} {down : τ → RSeg β → τ × Bool} {len : Int} {st : RState}
    {dn : τ} {evs : List REv} {n k : Nat} (h : RaisesAt ex down len st dn (evs.take n) k) : RaisesAt ex down len st dn evs k := by
  obtain ⟨h1, h2⟩ := h
  have hk : k < n := by
    have := (List.getElem?_eq_some_iff.1 h1).1
    rw [List.length_take] at this
    omega
  rw [List.getElem?_take_of_lt hk] at h1
  rw [List.take_take, Nat.min_eq_left (by omega)] at h2
  exact ⟨h1, h2⟩

theorem lastEnd_run {β : Type} (ex : Seq.State → Int → Int → Option β × Seq.State) (len : Int) : ∀ (evs : List REv) (s : RState),
    (runR ex len s evs).1.lastEnd = s.lastEnd + (runR ex len s evs).2.length * len
  | [], s => by simp [runR]
  | e :: es, s => by
    have hstep : (reseq ex len s e).1.lastEnd = s.lastEnd + (reseq ex len s e).2.toList.length * len := by
      cases e with
      | deliver now d => simp [reseq]
      | tick =>
        unfold reseq
        cases s.cons.seq with
        | none => simp
        | some q =>
          cases q with
          | none => simp
          | some q =>
            simp only
            cases (ex q s.lastEnd (s.lastEnd + len)).1 <;> simp
    simp only [runR]
    rw [lastEnd_run ex len es, hstep, List.length_append, Int.natCast_add, Int.add_mul]
    omega

/-- Under the conditions of C99 no call of the timer raises, and the encoder puts out the conversions of all segments. -/
theorem chain_same {src : Seq.Doc → Source} {discard : Bool} {cfg : Seq.Cfg} {g : Option String} {start len : Int} (hl : 0 < len)
    (hms : start % 1000 = 0 ∧ len % 1000 = 0) (evs : List REv) (hin : InSeq cfg g (deliveries evs))
    (m : Media) (hrd : m.rd.Accurate) (hz0 : 0 ≤ m.zero) (hzms : m.base = .clock → m.zero % 1000 = 0)
    (hz : m.base = .clock → m.zero ≤ start) (fin : Int) (hfin : fin = start + ticksAfterFirst evs * len) (htop : fin < 100 * 3600000000)
    (hdocs : ∀ d ∈ deliveries evs, (src d).Sound d fin ∧ lined true (src d).root = true ∧ flat (src d).root = true ∧
      (src d).base = m.base)
    (run : Timed RState (List (Option (Node Att))) × List (RSeg (Option SDoc)))
    (hrun : run = runTR (extract src discard) (toEncoder m) len ⟨{ lastEnd := start }, [], true⟩ evs) :
    run.1.on = true ∧ run.1.down.length = ticksAfterFirst evs ∧
    (∀ u, readOf run.1.down u = linesAll m (runR (extract src discard) len { lastEnd := start } evs).2 u) ∧
    ∀ k, (runTR (extract src discard) (toEncoder m) len ⟨{ lastEnd := start }, [], true⟩ (evs.take k)).1.node =
      (runR (extract src discard) len { lastEnd := start } (evs.take k)).1 := by
  have hlen := C99_segments (src := src) (discard := discard) (start := start) (Int.le_of_lt hl) evs hin
  have hsub : ∀ k, ∀ d ∈ deliveries (evs.take k), d ∈ deliveries evs := by
    intro k d hd
    rw [← List.take_append_drop k evs, deliveries_append]
    exact List.mem_append_left _ hd
  -- every segment is converted
  have hconv : ∀ k seg, evs[k]? = some .tick →
      (reseq (extract src discard) len (runR (extract src discard) len { lastEnd := start } (evs.take k)).1 .tick).2 = some seg →
      ∃ o, encode m seg.doc = .ok o := by
    intro k seg hk hseg
    obtain ⟨hf, hr⟩ := fed_run (src := src) (discard := discard) (start := start) (Int.le_of_lt hl) _ (take_inSeq hin k)
    obtain ⟨q, hq⟩ := tick_seq hseg
    have hbound : (runR (extract src discard) len { lastEnd := start } (evs.take k)).1.lastEnd + len ≤ fin := by
      have hs : evs.take (k + 1) = evs.take k ++ [.tick] := by rw [List.take_add_one, hk]; rfl
      have hle : (runR (extract src discard) len { lastEnd := start } (evs.take (k + 1))).2.length ≤ ticksAfterFirst evs := by
        rw [← hlen]
        conv => rhs; rw [← List.take_append_drop (k + 1) evs]
        rw [(runR_append ..).2, List.length_append]
        omega
      have h1 := lastEnd_run (extract src discard) len (evs.take k) { lastEnd := start }
      rw [hs, (runR_append ..).2] at hle
      simp only [runR, hseg, Option.toList, List.append_nil, List.length_append, List.length_singleton] at hle
      have hm : ((((runR (extract src discard) len { lastEnd := start } (evs.take k)).2.length + 1 : Nat)) : Int) * len ≤ ticksAfterFirst evs * len :=
        Int.mul_le_mul_of_nonneg_right (by omega) (by omega)
      rw [Int.natCast_add, Int.add_mul] at hm
      simp only [Int.natCast_one, Int.one_mul] at hm
      rw [h1]
      simp only
      omega
    have hfd : ∀ d ∈ q.docs, d ∈ deliveries evs := by
      intro d hd
      by_cases hds : deliveries (evs.take k) = []
      · rw [(hf.idle hds).2] at hq; cases hq
      · obtain ⟨q', _, _, _, hq', _, _, _, _, _, hs, _⟩ := hf.busy hds
        rw [hq] at hq'
        injection hq' with hq'; injection hq' with hq'; subst hq'
        exact hsub k d (hs d hd)
    obtain ⟨_, _, o, ho, _⟩ := C98_segment_played_partial (Int.le_of_lt hl) hms hr q hq (by omega)
      (fun d hd => ⟨Sound.mono (hdocs d (hfd d hd)).1 hbound, (hdocs d (hfd d hd)).2.1⟩) (fun d hd => (hdocs d (hfd d hd)).2.2.1) m hrd hz0 hzms
      (fun d hd => (hdocs d (hfd d hd)).2.2.2) hz seg hseg
    exact ⟨o, ho⟩
  have hnever : ∀ k, ¬ RaisesAt (extract src discard) (toEncoder m) len { lastEnd := start } [] evs k := by
    intro k ⟨hk, hr⟩
    have hf := (fed_run (src := src) (discard := discard) (start := start) (Int.le_of_lt hl) _ (take_inSeq hin k)).1
    rcases hr with ⟨q, hq, hn⟩ | ⟨seg, hseg, hd⟩
    · have := (C99_every_tick (src := src) (discard := discard) (start := start) (Int.le_of_lt hl) evs hin k).2 (fun he => by
        rw [(hf.idle he).2] at hq; cases hq)
      rw [hn] at this
      cases this
    · obtain ⟨o, ho⟩ := hconv k seg hk hseg
      simp [toEncoder, ho] at hd
  have hgo := C101_goes_on (extract src discard) (toEncoder m) len evs { lastEnd := start } [] hnever
  obtain ⟨g1, g2⟩ := handed_encoder m (runR (extract src discard) len { lastEnd := start } evs).2 [] (by
    intro seg hseg
    obtain ⟨k, hk, ht⟩ := runR_emits _ _ _ _ seg hseg
    exact hconv k seg hk ht)
  rw [hrun, hgo]
  refine ⟨rfl, by simpa [hlen] using g1, fun u => ?_, fun k => ?_⟩
  · simp only
    rw [g2 u]
    simp [readOf]
  · rw [C101_goes_on (extract src discard) (toEncoder m) len (evs.take k) { lastEnd := start } [] (fun j hj => hnever j (raisesAt_take hj))]

/-- **C101**  Under the conditions of C99 the timer of a resequencer that hands its segments to the encoder in the same process never
stops: there is a converted document for each call of the timer after the first document, and of those documents is read what C99 says. -/
theorem C101_chain_partial {src : Seq.Doc → Source} {discard : Bool} {cfg : Seq.Cfg} {g : Option String} {start len : Int} (hl : 0 < len)
    (hms : start % 1000 = 0 ∧ len % 1000 = 0) (evs : List REv) (hin : InSeq cfg g (deliveries evs))
    (m : Media) (hrd : m.rd.Accurate) (hz0 : 0 ≤ m.zero) (hzms : m.base = .clock → m.zero % 1000 = 0)
    (hz : m.base = .clock → m.zero ≤ start) (fin : Int) (hfin : fin = start + ticksAfterFirst evs * len) (htop : fin < 100 * 3600000000)
    (hdocs : ∀ d ∈ deliveries evs, (src d).Sound d fin ∧ lined true (src d).root = true ∧ flat (src d).root = true ∧
      (src d).base = m.base)
    (run : Timed RState (List (Option (Node Att))) × List (RSeg (Option SDoc)))
    (hrun : run = runTR (extract src discard) (toEncoder m) len ⟨{ lastEnd := start }, [], true⟩ evs) :
    run.1.on = true ∧ run.1.down.length = ticksAfterFirst evs ∧
    ∀ u, 0 ≤ u →
      (start ≤ u + m.shift ∧ u + m.shift < fin →
        ∃ k st, evs[k]? = some .tick ∧ deliveries (evs.take k) ≠ [] ∧
          st = (runTR (extract src discard) (toEncoder m) len ⟨{ lastEnd := start }, [], true⟩ (evs.take k)).1.node ∧
          st.lastEnd = start + ticksAfterFirst (evs.take k) * len ∧ st.lastEnd ≤ u + m.shift ∧ u + m.shift < st.lastEnd + len ∧
          (∀ a, Seq.Newest (deliveries (evs.take k)) (u + m.shift) a → Seq.EndsAfter a (u + m.shift) →
            readOf run.1.down u = linesIn (src a) (u + m.shift)) ∧
          ((∀ a, Seq.Newest (deliveries (evs.take k)) (u + m.shift) a → ¬ Seq.EndsAfter a (u + m.shift)) → readOf run.1.down u = [])) ∧
      (¬(start ≤ u + m.shift ∧ u + m.shift < fin) → readOf run.1.down u = []) := by
  obtain ⟨h1, h2, h3, h4⟩ := chain_same (discard := discard) hl hms evs hin m hrd hz0 hzms hz fin hfin htop hdocs run hrun
  obtain ⟨_, hplay⟩ := C99_played_partial (discard := discard) hl hms evs hin m hrd hz0 hzms hz fin hfin htop hdocs _ rfl
  refine ⟨h1, h2, fun u hu => ?_⟩
  rw [h3 u]
  obtain ⟨g1, g2⟩ := hplay u hu
  refine ⟨fun hr => ?_, g2⟩
  obtain ⟨k, st, hk, hs, hst, hx⟩ := g1 hr
  refine ⟨k, st, hk, hs, by rw [h4 k]; exact hst, ?_, hx⟩
  rw [hst, lastEnd_run, C99_segments (Int.le_of_lt hl) _ (take_inSeq hin k)]

/-- The hypotheses of `C101_chain_partial` are those of `C99_played_partial`, for which see the example there; with its events the
encoder puts out three documents, and this is what is read. -/
example : (runTR (extract exLineClock true) (toEncoder exHalf) 3000000 ⟨{ lastEnd := 1000000 }, [], true⟩ exFed).1.on = true ∧
    (runTR (extract exLineClock true) (toEncoder exHalf) 3000000 ⟨{ lastEnd := 1000000 }, [], true⟩ exFed).1.down.length = 3 ∧
    [499999, 500000, 4499999, 4500000, 7499999, 7500000].map
        (readOf (runTR (extract exLineClock true) (toEncoder exHalf) 3000000 ⟨{ lastEnd := 1000000 }, [], true⟩ exFed).1.down) =
      [[], [[.text ['a'], .br, .text ['b']]], [[.text ['a'], .br, .text ['b']]], [[.text ['c'], .br, .text ['d']]],
        [[.text ['c'], .br, .text ['d']]], []] := by decide +kernel

/-! ### What stops the timer -/

theorem runTR_append {β τ : Type} (ex : Seq.State → Int → Int → Option β × Seq.State) (down : τ → RSeg β → τ × Bool) (len : Int) :
    ∀ (a b : List REv) (s : Timed RState τ),
      (runTR ex down len s (a ++ b)).1 = (runTR ex down len (runTR ex down len s a).1 b).1 ∧
      (runTR ex down len s (a ++ b)).2 = (runTR ex down len s a).2 ++ (runTR ex down len (runTR ex down len s a).1 b).2
  | [], _, _ => ⟨rfl, rfl⟩
  | e :: es, b, s => by
    obtain ⟨h1, h2⟩ := runTR_append ex down len es b (timedR ex down len s e).1
    exact ⟨h1, by simp only [List.cons_append, runTR, h2, List.append_assoc]⟩

theorem stops_after {β τ : Type} (ex : Seq.State → Int → Int → Option β × Seq.State) (down : τ → RSeg β → τ × Bool) (len : Int)
    (s : Timed RState τ) (before : List REv) (h : (runTR ex down len s before).1.on = false) (after : List REv) :
    (runTR ex down len s (before ++ after)).2 = (runTR ex down len s before).2 ∧
    (runTR ex down len s (before ++ after)).1.down = (runTR ex down len s before).1.down := by
  obtain ⟨h1, h2⟩ := runTR_append ex down len before after s
  obtain ⟨h3, _, h4⟩ := C101_stopped ex down len after _ h
  rw [h1, h2, h3, h4]
  simp

/-- A document with a `div` inside a `div` and sensible times; EBU-TT-D has no room for it. -/
def exInner : CDoc := ⟨Seq.mk 1 1 1000000 (some 9000000), some 0, fun _ => (1000000, some 9000000)⟩

/-- The claim that one document the encoder cannot convert costs only the segments it is in is false: the timer stops with the
first of them, and the encoder never gets another segment, whatever documents come afterwards. -/
theorem C101_false_nested : ∃ (src : Seq.Doc → Source) (cfg : Seq.Cfg), InSeq cfg none (deliveries [.deliver 0 (some exInner)]) ∧
    (∀ d ∈ deliveries [.deliver 0 (some exInner)], (src d).Good d 12000000 ∧ (src d).base = .clock) ∧
    ∀ after : List REv,
      (runTR (extract src true) (toEncoder exHalf) 2000000 ⟨{ lastEnd := 2000000 }, [], true⟩
        ([.deliver 0 (some exInner), .tick] ++ after)).1.down = [] := by
  have hd : deliveries [.deliver 0 (some exInner)] = [Seq.mk 1 1 1000000 (some 9000000)] := by decide
  refine ⟨fun _ => exClocked exNested, Seq.exCfg, ?_, ?_, ?_⟩
  · rw [hd]
    refine ⟨by decide, ?_, by decide, by decide⟩
    intro d hd
    rw [List.mem_singleton] at hd
    subst hd
    exact ⟨by simp [Seq.mk], by intro e he; simp [Seq.mk] at he ⊢; omega⟩
  · intro d hd'
    rw [hd, List.mem_singleton] at hd'
    subst hd'
    exact ⟨exClocked_good (exSource_good (sane_of rfl (by decide) (by decide)) (by decide) (by decide) (by decide) (by decide)
        ⟨_, _, validateDoc_eq _ _, by decide +kernel, by decide +kernel⟩ _) (by omega), rfl⟩
  · intro after
    rw [(stops_after _ _ _ _ _ (by decide +kernel) after).2]
    decide +kernel

/-- Three documents of one sequence that come out of order, numbers 3, 1 and 2. -/
def exMixedUp : List (Int × Option CDoc) :=
  [(0, some ⟨Seq.mk 0 3 10 (some 20), some 0, fun _ => (10, some 20)⟩), (0, some ⟨Seq.mk 1 1 0 (some 15), some 0, fun _ => (0, some 15)⟩),
   (0, some ⟨Seq.mk 2 2 5 (some 15), some 0, fun _ => (5, some 15)⟩)]

/-- The claim that the segments go on when all documents were taken is false when they came out of order and are discarded after use:
here the second call of the timer raises, and there is never another segment, whatever documents come afterwards. -/
theorem C101_false_out_of_order : ∃ (src : Seq.Doc → Source),
    (runC {} exMixedUp).2 = [.added .inserted, .added .inserted, .added .inserted] ∧
    ∀ after : List REv,
      (runTR (extract src true) (fun (n : Nat) _ => (n + 1, true)) 10 ⟨{ lastEnd := 0 }, 0, true⟩
        (exMixedUp.map (fun x => .deliver x.1 x.2) ++ [.tick, .tick] ++ after)).1.down = 1 := by
  refine ⟨exBare, by decide +kernel, fun after => ?_⟩
  rw [(stops_after _ _ _ _ _ (by decide +kernel) after).2]
  decide +kernel

/-- A document with GPS clock times. -/
def exGps : CDoc :=
  { doc := { Seq.mk 1 1 0 none with timeBase := "clock", clockMode := some "gps" }, avail := some 0, times := fun _ => (0, none) }

/-- The claim that a first document that cannot be taken does no harm to later ones is false: after a first document with GPS clock times the next
call of the timer raises, and there is never a segment, whatever documents come afterwards, when and however often the timer would run. -/
theorem C101_false_first_document (src : Seq.Doc → Source) (discard : Bool) (start len : Int) (after : List REv) :
    (consume 0 {} (some exGps)).2 = .attributeError ∧
    (runTR (extract src discard) (fun (n : Nat) _ => (n + 1, true)) len ⟨{ lastEnd := start }, 0, true⟩
      ([.deliver 0 (some exGps), .tick] ++ after)).2 = [] := by
  refine ⟨by decide, ?_⟩
  rw [(stops_after _ _ _ _ _ (by rfl) after).1]
  rfl

end Verif.Convert
