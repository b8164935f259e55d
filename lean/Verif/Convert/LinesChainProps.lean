import Verif.Convert.LinesChain
import Verif.Convert.ChainProps

/-! C98: C97 after conversion: lines stay lines in the EBU-TT-D documents made from a sequence. -/
namespace Verif.Convert

open Verif.Doc Verif.Time Verif.Node

/-- Both readings of the property at once. -/
theorem played_reads {cfg : Seq.Cfg} {agid : Option String} {s : Seq.State} {log : List Seq.Doc}
    (h : Seq.Reach cfg agid s log) (src : Seq.Doc → Source) (lo hi : Option Int) (top : Int) (htop : top < 100 * 3600000000)
    (hlo : ∀ b, lo = some b → b % 1000 = 0) (hhi : ∀ e, hi = some e → e ≤ top ∧ e % 1000 = 0)
    (hlh : ∀ b e, lo = some b → hi = some e → b ≤ e)
    (hopen : hi = none → ∀ d ∈ s.docs, ∃ e, Seq.resolvedEnd s d = some (some e) ∧ e ≤ top) (exact : Bool)
    (hg : ∀ d ∈ s.docs, (src d).Sound d top ∧ lined exact (src d).root = true) (hf : ∀ d ∈ s.docs, flat (src d).root = true)
    (m : Media) (hrd : m.rd.Accurate) (hz0 : 0 ≤ m.zero) (hms : m.base = .clock → m.zero % 1000 = 0)
    (hbase : ∀ d ∈ s.docs, (src d).base = m.base) (hz : m.base = .clock → ∃ b, lo = some b ∧ m.zero ≤ b) :
    ∃ out, deliver s src lo hi m = some (.ok out) ∧
      ∀ u, 0 ≤ u →
        (Win.at ⟨lo, hi⟩ (u + m.shift) = true →
          (∀ a, Seq.ActiveAt s a (u + m.shift) →
            (linesPlayed out u).map (List.filter (keep exact)) = (linesIn (src a) (u + m.shift)).map (List.filter (keep exact))) ∧
          ((∀ a, ¬ Seq.ActiveAt s a (u + m.shift)) → (linesPlayed out u).map (List.filter (keep exact)) = [])) ∧
        (Win.at ⟨lo, hi⟩ (u + m.shift) = false → (linesPlayed out u).map (List.filter (keep exact)) = []) := by
  obtain ⟨o, ho, hshow⟩ := resegmented_reads h src lo hi top htop hlo hhi hlh hopen exact hg
  have key : ∃ out, encode m o = .ok out ∧
      ∀ u, 0 ≤ u → linesPlayed out u = linesBy o (u + m.shift) := by
    obtain ⟨ws, hws, hcons, hfst, hin, _, _⟩ := Seq.C12_windows h lo hi hlh
    have hwd : ∀ w ∈ ws, w.1 ∈ s.docs ∧ Seq.ShownIn s lo hi w.1 = true := by
      intro w hw
      have : w.1 ∈ ws.map (·.1) := List.mem_map_of_mem hw
      rw [hfst, List.mem_filter] at this
      exact this
    have hbd := window_bounds h src lo hi top hlo hhi hopen (fun d hd => (hg d hd).1) hws hcons (fun w hw => (hwd w hw).1) (fun w hw => (hin w hw).2)
    have hends := windows_ends _ _ ws hws
    have hready : ∀ sd ∈ ws.filterMap (fun w => segmentOf (src w.1) w.1.num ⟨w.2.1, w.2.2⟩), SegLines exact m sd.body := by
      intro sd hsd
      rw [List.mem_filterMap] at hsd
      obtain ⟨w, hw, he⟩ := hsd
      obtain ⟨g1, we, g2, g3, g4⟩ := hbd w hw
      rw [g2] at he
      obtain ⟨hgs, hgl⟩ := hg w.1 (hwd w hw).1
      refine segmentOf_lined hgs exact hgl htop w.1.num g1 g3 g4 m (hbase w.1 (hwd w hw).1) ?_ (hf w.1 (hwd w hw).1) sd he
      intro hc
      obtain ⟨b, hb, hzb⟩ := hz hc
      obtain ⟨b', hb', hle⟩ := (hin w hw).1 b hb
      refine ⟨⟨b', hb', by omega⟩, ?_⟩
      obtain ⟨r, hr, hwe⟩ := hends w hw
      have hsh := (hwd w hw).2
      rw [g2] at hwe
      have hbr : ∀ y, r = some y → b < y := by
        intro y hy
        unfold Seq.ShownIn at hsh
        rw [hr, hb, hy] at hsh
        simp only [Bool.and_eq_true, decide_eq_true_eq] at hsh
        exact hsh.2
      unfold Seq.winEnd at hwe
      cases hhh : hi with
      | none => rw [hhh] at hwe; have := hbr we hwe.symm; omega
      | some t =>
        have := hlh b t hb hhh
        rw [hhh] at hwe
        cases hrr : r with
        | none => rw [hrr] at hwe; simp at hwe; omega
        | some y =>
          have := hbr y hrr
          rw [hrr] at hwe
          simp only at hwe
          split at hwe <;> simp at hwe <;> omega
    rw [extractSegment, hws] at ho
    simp only [Option.map_some, Option.some.injEq] at ho
    cases hsegs : ws.filterMap (fun w => segmentOf (src w.1) w.1.num ⟨w.2.1, w.2.2⟩) with
    | nil =>
      rw [hsegs] at ho
      rw [← ho]
      exact ⟨none, rfl, fun _ _ => rfl⟩
    | cons d ds =>
      rw [hsegs] at ho hready
      rw [← ho]
      simp only [splice, encode, Option.elim]
      exact lined_converted hrd hz0 hms (fold_lined ds ([], d) (hready d List.mem_cons_self)
        (fun d' hd' => hready d' (List.mem_cons_of_mem _ hd')))
  obtain ⟨out, hout, hplay⟩ := key
  refine ⟨out, by rw [deliver, ho, Option.map_some, hout], ?_⟩
  intro u hu
  rw [hplay u hu]
  exact hshow (u + m.shift)

/-- **C98**  For every reachable sequence and every window: the document extracted for the window is converted, and of the
EBU-TT-D document is read, at every media time that corresponds to an instant of the window, of each paragraph exactly the text
and line breaks, in their order, that the document active at that instant shows of it; nothing where none is active, and nothing
at other media times.  An element of the EBU-TT-D document is on according to the times written on it, as in a player
(`linesPlayed`).  Assumes what `C97_resegmented_lines_partial` and `C86_played_is_active_partial` assume, but not that line
breaks do not stand beside spans. -/
theorem C98_played_lines_partial {cfg : Seq.Cfg} {agid : Option String} {s : Seq.State} {log : List Seq.Doc}
    (h : Seq.Reach cfg agid s log) (src : Seq.Doc → Source) (lo hi : Option Int) (top : Int) (htop : top < 100 * 3600000000)
    (hlo : ∀ b, lo = some b → b % 1000 = 0) (hhi : ∀ e, hi = some e → e ≤ top ∧ e % 1000 = 0)
    (hlh : ∀ b e, lo = some b → hi = some e → b ≤ e)
    (hopen : hi = none → ∀ d ∈ s.docs, ∃ e, Seq.resolvedEnd s d = some (some e) ∧ e ≤ top)
    (hg : ∀ d ∈ s.docs, (src d).Sound d top ∧ lined true (src d).root = true) (hf : ∀ d ∈ s.docs, flat (src d).root = true)
    (m : Media) (hrd : m.rd.Accurate) (hz0 : 0 ≤ m.zero) (hms : m.base = .clock → m.zero % 1000 = 0)
    (hbase : ∀ d ∈ s.docs, (src d).base = m.base) (hz : m.base = .clock → ∃ b, lo = some b ∧ m.zero ≤ b) :
    ∃ out, deliver s src lo hi m = some (.ok out) ∧
      ∀ u, 0 ≤ u →
        (Win.at ⟨lo, hi⟩ (u + m.shift) = true →
          (∀ a, Seq.ActiveAt s a (u + m.shift) → linesPlayed out u = linesIn (src a) (u + m.shift)) ∧
          ((∀ a, ¬ Seq.ActiveAt s a (u + m.shift)) → linesPlayed out u = [])) ∧
        (Win.at ⟨lo, hi⟩ (u + m.shift) = false → linesPlayed out u = []) := by
  obtain ⟨out, h1, h2⟩ := played_reads h src lo hi top htop hlo hhi hlh hopen true hg hf m hrd hz0 hms hbase hz
  refine ⟨out, h1, fun u hu => ?_⟩
  have hid : List.filter (keep true) = id := by funext l; exact keep_true l
  have := h2 u hu
  rw [hid] at this
  simpa only [List.map_id] using this

/-- **C98**, with spans of white space allowed: the pieces of text that are more than white space, and the line breaks. -/
theorem C98_played_words_partial {cfg : Seq.Cfg} {agid : Option String} {s : Seq.State} {log : List Seq.Doc}
    (h : Seq.Reach cfg agid s log) (src : Seq.Doc → Source) (lo hi : Option Int) (top : Int) (htop : top < 100 * 3600000000)
    (hlo : ∀ b, lo = some b → b % 1000 = 0) (hhi : ∀ e, hi = some e → e ≤ top ∧ e % 1000 = 0)
    (hlh : ∀ b e, lo = some b → hi = some e → b ≤ e)
    (hopen : hi = none → ∀ d ∈ s.docs, ∃ e, Seq.resolvedEnd s d = some (some e) ∧ e ≤ top)
    (hg : ∀ d ∈ s.docs, (src d).Sound d top ∧ lined false (src d).root = true) (hf : ∀ d ∈ s.docs, flat (src d).root = true)
    (m : Media) (hrd : m.rd.Accurate) (hz0 : 0 ≤ m.zero) (hms : m.base = .clock → m.zero % 1000 = 0)
    (hbase : ∀ d ∈ s.docs, (src d).base = m.base) (hz : m.base = .clock → ∃ b, lo = some b ∧ m.zero ≤ b) :
    ∃ out, deliver s src lo hi m = some (.ok out) ∧
      ∀ u, 0 ≤ u →
        (Win.at ⟨lo, hi⟩ (u + m.shift) = true →
          (∀ a, Seq.ActiveAt s a (u + m.shift) →
            (linesPlayed out u).map (List.filter (keep false)) = (linesIn (src a) (u + m.shift)).map (List.filter (keep false))) ∧
          ((∀ a, ¬ Seq.ActiveAt s a (u + m.shift)) → (linesPlayed out u).map (List.filter (keep false)) = [])) ∧
        (Win.at ⟨lo, hi⟩ (u + m.shift) = false → (linesPlayed out u).map (List.filter (keep false)) = []) :=
  played_reads h src lo hi top htop hlo hhi hlh hopen false hg hf m hrd hz0 hms hbase hz

/-! ### The segments of a resequencer -/

/-- **C98**  In every state a resequencer can reach: the segment that the timer produces is converted, and of the converted
document is read, at every media time that corresponds to an instant of its window, exactly what the document then active shows
of each paragraph, and at other media times nothing. -/
theorem C98_segment_played_partial {src : Seq.Doc → Source} {discard : Bool} {start len : Int} (hl : 0 ≤ len)
    (hms : start % 1000 = 0 ∧ len % 1000 = 0) {s : RState} {log : List Seq.Doc}
    (h : RReach (extract src discard) start len s log) (q : Seq.State) (hq : s.cons.seq = some (some q))
    (htop : s.lastEnd + len < 100 * 3600000000)
    (hg : ∀ d ∈ q.docs, (src d).Sound d (s.lastEnd + len) ∧ lined true (src d).root = true) (hf : ∀ d ∈ q.docs, flat (src d).root = true)
    (m : Media) (hrd : m.rd.Accurate) (hz0 : 0 ≤ m.zero) (hzms : m.base = .clock → m.zero % 1000 = 0)
    (hbase : ∀ d ∈ q.docs, (src d).base = m.base) (hz : m.base = .clock → m.zero ≤ start)
    (seg : RSeg (Option SDoc)) (hseg : (reseq (extract src discard) len s .tick).2 = some seg) :
    seg.lo = s.lastEnd ∧ seg.hi = s.lastEnd + len ∧ ∃ out, encode m seg.doc = .ok out ∧
      ∀ u, 0 ≤ u →
        (seg.lo ≤ u + m.shift ∧ u + m.shift < seg.hi →
          (∀ a, Seq.ActiveAt q a (u + m.shift) → linesPlayed out u = linesIn (src a) (u + m.shift)) ∧
          ((∀ a, ¬ Seq.ActiveAt q a (u + m.shift)) → linesPlayed out u = [])) ∧
        (¬(seg.lo ≤ u + m.shift ∧ u + m.shift < seg.hi) → linesPlayed out u = []) := by
  obtain ⟨n, hn⟩ := h.window
  have hnl : 0 ≤ (n : Int) * len := Int.mul_nonneg (by omega) hl
  have hmod : ((n : Int) * len) % 1000 = 0 := by
    rw [Int.mul_emod, hms.2]; simp
  obtain ⟨cfg, agid, l, hr, _⟩ := h.seq hl q hq
  obtain ⟨out, hout, hshow⟩ := C98_played_lines_partial hr src (some s.lastEnd) (some (s.lastEnd + len)) (s.lastEnd + len) htop
    (by intro b hb; injection hb with hb; omega) (by intro e he; injection he with he; omega)
    (by intro b e hb he; injection hb with hb; injection he with he; omega) (by intro hc; simp at hc) hg hf m hrd hz0 hzms hbase
    (fun hc => ⟨_, rfl, by have := hz hc; omega⟩)
  obtain ⟨o, ho, rfl⟩ := extract_emits hq hseg
  refine ⟨rfl, rfl, out, ?_, ?_⟩
  · rw [deliver, ho] at hout
    simpa using hout
  · intro u hu
    have := hshow u hu
    simp only [Win.at, Bool.and_eq_true, decide_eq_true_eq, Bool.and_eq_false_iff, decide_eq_false_iff_not] at this
    refine ⟨this.1, fun hx => this.2 ?_⟩
    simp only at hx
    omega

/-- What is read of the conversion of an emitted segment at a media time; nothing if it cannot be converted. -/
def linesSeg (m : Media) (g : RSeg (Option SDoc)) (u : Int) : List (List Item) :=
  match encode m g.doc with
  | .ok o => linesPlayed o u
  | .error _ => []

/-- All that is read at media time `u` of the segments emitted in a course of events, after conversion. -/
def linesAll (m : Media) (segs : List (RSeg (Option SDoc))) (u : Int) : List (List Item) :=
  (segs.map (fun g => linesSeg m g u)).flatten

theorem Sound.mono {src : Source} {d : Seq.Doc} {hi hi' : Int} (h : src.Sound d hi) (hle : hi' ≤ hi) : src.Sound d hi' :=
  ⟨h.rd, h.avail, h.availMs, h.sane, h.shaped, h.wellTimed, h.inMs,
    h.base.imp id (fun hb => ⟨hb.1, by have := hb.2; omega⟩), h.refs, h.times⟩

/-- **C98**  For every course of events at a resequencer: at every media time that the segments emitted so far cover, of all
their conversions played together is read exactly what the document shows of each paragraph that was active at the corresponding
instant when the segment with that instant was extracted, and nothing if none was active; at other media times nothing is read. -/
theorem C98_whole_run_partial {src : Seq.Doc → Source} {discard : Bool} {start len : Int} (hl : 0 < len)
    (hms : start % 1000 = 0 ∧ len % 1000 = 0) (evs : List REv)
    (hrun : ∀ k, ∃ log, RReach (extract src discard) start len (runR (extract src discard) len { lastEnd := start } (evs.take k)).1 log)
    (m : Media) (hrd : m.rd.Accurate) (hz0 : 0 ≤ m.zero) (hzms : m.base = .clock → m.zero % 1000 = 0)
    (hz : m.base = .clock → m.zero ≤ start) (segs : List (RSeg (Option SDoc)))
    (hsegs : segs = (runR (extract src discard) len { lastEnd := start } evs).2) (htop : start + segs.length * len < 100 * 3600000000)
    (hdocs : ∀ k q, (runR (extract src discard) len { lastEnd := start } (evs.take k)).1.cons.seq = some (some q) → ∀ d ∈ q.docs,
      (src d).Sound d (start + segs.length * len) ∧ lined true (src d).root = true ∧ flat (src d).root = true ∧ (src d).base = m.base)
    (u : Int) (hu : 0 ≤ u) :
    (start ≤ u + m.shift ∧ u + m.shift < start + segs.length * len →
      ∃ k st q, evs[k]? = some .tick ∧ st = (runR (extract src discard) len { lastEnd := start } (evs.take k)).1 ∧
        st.lastEnd ≤ u + m.shift ∧ u + m.shift < st.lastEnd + len ∧ st.cons.seq = some (some q) ∧
        (∀ a, Seq.ActiveAt q a (u + m.shift) → linesAll m segs u = linesIn (src a) (u + m.shift)) ∧
        ((∀ a, ¬ Seq.ActiveAt q a (u + m.shift)) → linesAll m segs u = [])) ∧
    (¬(start ≤ u + m.shift ∧ u + m.shift < start + segs.length * len) → linesAll m segs u = []) := by
  refine run_played hl evs segs hsegs (fun g => linesSeg m g u) (fun a => linesIn (src a) (u + m.shift)) (u + m.shift) ?_
  intro g hg hb
  rw [hsegs] at hg
  obtain ⟨k, hk, htick⟩ := runR_emits _ _ _ _ g hg
  obtain ⟨log, hr⟩ := hrun k
  generalize hst : (runR (extract src discard) len { lastEnd := start } (evs.take k)).1 = st at *
  obtain ⟨q, hq⟩ := tick_seq htick
  obtain ⟨hglo, hghi⟩ : g.lo = st.lastEnd ∧ g.hi = st.lastEnd + len := by
    obtain ⟨o, _, rfl⟩ := extract_emits hq htick
    exact ⟨rfl, rfl⟩
  have hd := fun d hdm => hdocs k q (by rw [hst]; exact hq) d hdm
  obtain ⟨_, _, out, hout, hshow⟩ := C98_segment_played_partial (by omega) hms hr q hq (by omega)
    (fun d hdm => ⟨Sound.mono (hd d hdm).1 (by omega), (hd d hdm).2.1⟩) (fun d hdm => (hd d hdm).2.2.1) m hrd hz0 hzms
    (fun d hdm => (hd d hdm).2.2.2) hz g htick
  refine ⟨k, q, hk, by rw [hst]; exact hq, by rw [hst]; exact hglo, by omega, ?_⟩
  unfold linesSeg
  rw [hout]
  exact hshow u hu

/-! ### Example: two documents of two lines, clock times, media time zero at half a second -/

/-- The sources of the documents of the example of C97, with clock times. -/
def exLineClock (d : Seq.Doc) : Source := { exLineSrc d with base := .clock }

theorem exLineClock_facts {d : Seq.Doc} (hd : d ∈ exHeld) {hi : Int} (hh : hi < 100 * 3600000000) :
    (exLineClock d).Sound d hi ∧ lined true (exLineClock d).root = true ∧ flat (exLineClock d).root = true ∧
      (exLineClock d).base = exHalf.base := by
  have mk : ∀ {root : Node Att}, (exSource root).Sound d hi → ({ exSource root with base := .clock } : Source).Sound d hi :=
    fun h => ⟨h.rd, h.avail, h.availMs, h.sane, h.shaped, h.wellTimed, h.inMs, .inr ⟨rfl, hh⟩, h.refs, h.times⟩
  simp only [exHeld, List.mem_cons, List.not_mem_nil, or_false] at hd
  rcases hd with rfl | rfl
  · exact ⟨mk (exSource_sound (sane_of rfl (by decide) (by decide)) (by decide) (by decide) (by decide)
      ⟨_, _, validateDoc_eq _ _, by decide +kernel, by decide +kernel⟩ _), by decide, by decide, rfl⟩
  · exact ⟨mk (exSource_sound (sane_of rfl (by decide) (by decide)) (by decide) (by decide) (by decide)
      ⟨_, _, validateDoc_eq _ _, by decide +kernel, by decide +kernel⟩ _), by decide, by decide, rfl⟩

/-- The hypotheses of `C98_played_lines_partial` hold, and of the converted document the two documents are read one after the other,
with their line breaks, half a second earlier. -/
example : Seq.Reach Seq.exCfg none (Seq.run (Seq.State.init Seq.exCfg none) exHeld).1 exHeld.reverse ∧
    (Seq.run (Seq.State.init Seq.exCfg none) exHeld).1.docs = exHeld ∧
    (∀ d ∈ exHeld, (exLineClock d).Sound d 12000000 ∧ lined true (exLineClock d).root = true ∧ flat (exLineClock d).root = true ∧
      (exLineClock d).base = exHalf.base) ∧ exHalf.zero ≤ 2000000 ∧
    (deliver (Seq.run (Seq.State.init Seq.exCfg none) exHeld).1 exLineClock (some 2000000) (some 12000000) exHalf).map
        (fun r => r.toOption.map (fun out => [1499999, 1500000, 4499999, 4500000, 7499999, 7500000].map (fun u => linesPlayed out u))) =
      some (some [[], [[.text ['a'], .br, .text ['b']]], [[.text ['a'], .br, .text ['b']]], [[.text ['c'], .br, .text ['d']]],
        [[.text ['c'], .br, .text ['d']]], []]) := by
  exact ⟨exHeld_reach, by decide +kernel, fun d hd => exLineClock_facts hd (by omega), by decide, by decide +kernel⟩

/-- The hypotheses of `C98_whole_run_partial` hold of the course of events of C86 with these documents. -/
example : (∀ k, ∃ log, RReach (extract exLineClock true) 1000000 5000000
      (runR (extract exLineClock true) 5000000 { lastEnd := 1000000 } (exEvents.take k)).1 log) ∧
    (runR (extract exLineClock true) 5000000 { lastEnd := 1000000 } exEvents).2.length = 2 ∧
    [499999, 500000, 4499999, 4500000, 5499999, 5500000, 7499999, 7500000].map
        (linesAll exHalf (runR (extract exLineClock true) 5000000 { lastEnd := 1000000 } exEvents).2) =
      [[], [[.text ['a'], .br, .text ['b']]], [[.text ['a'], .br, .text ['b']]], [[.text ['c'], .br, .text ['d']]],
        [[.text ['c'], .br, .text ['d']]], [[.text ['c'], .br, .text ['d']]], [[.text ['c'], .br, .text ['d']]], []] := by
  refine ⟨?_, by decide +kernel, by decide +kernel⟩
  have hw : ∀ d ∈ exHeld, Seq.WellTimed (arrived 0 (exC d)) := by
    intro d hd
    simp only [exHeld, List.mem_cons, List.not_mem_nil, or_false] at hd
    rcases hd with rfl | rfl
    · exact ⟨by decide, by intro e he; simp [exC, arrived, Seq.mk] at he ⊢; omega⟩
    · exact ⟨by decide, by intro e he; simp [exC, arrived, Seq.mk] at he ⊢; omega⟩
  have h1 : RReach (extract exLineClock true) 1000000 5000000 _ _ :=
    .deliver 0 (exC (Seq.mk 1 1 1000000 (some 9000000))) .init (hw _ (by simp [exHeld])) (by simp) (by
      intro o ho
      have : (consume 0 ({ lastEnd := 1000000 } : RState).cons (some (exC (Seq.mk 1 1 1000000 (some 9000000))))).2 = .added .inserted := by
        decide
      rw [this] at ho
      injection ho with ho
      subst ho; rfl)
  have h2 := RReach.deliver 0 (exC (Seq.mk 2 2 5000000 (some 8000000))) h1 (hw _ (by simp [exHeld])) (by decide) (by
      intro o ho
      have : (consume 0 (reseq (extract exLineClock true) 5000000 ({ lastEnd := 1000000 } : RState)
          (.deliver 0 (some (exC (Seq.mk 1 1 1000000 (some 9000000)))))).1.cons
          (some (exC (Seq.mk 2 2 5000000 (some 8000000))))).2 = .added .inserted := by
        decide
      rw [this] at ho
      injection ho with ho
      subst ho; rfl)
  intro k
  match k with
  | 0 => exact ⟨_, .init⟩
  | 1 => exact ⟨_, h1⟩
  | 2 => exact ⟨_, h2⟩
  | 3 => exact ⟨_, h2.tick⟩
  | n + 4 =>
    have : exEvents.take (n + 4) = exEvents := List.take_of_length_le (by simp [exEvents])
    rw [this]
    exact ⟨_, h2.tick.tick⟩

/-- Text beside timed spans: after the conversion the paragraph has no times, so that a player shows the text at all times, also
where the document is not active at all. -/
theorem C98_false_forever : ∃ (cfg : Seq.Cfg) (s : Seq.State) (log : List Seq.Doc) (src : Seq.Doc → Source),
    Seq.Reach cfg none s log ∧ (∀ d ∈ s.docs, (src d).Sound d 12000000 ∧ flat (src d).root = true ∧ (src d).base = .clock) ∧
    (∀ a, ¬ Seq.ActiveAt s a 11500000) ∧
    ∃ out, deliver s src (some 1000000) (some 12000000) exHalf = some (.ok out) ∧ linesPlayed out 11000000 = [[.text "who".toList]] := by
  have hr : Seq.Reach Seq.exCfg none (Seq.run (Seq.State.init Seq.exCfg none) [Seq.mk 1 1 1000000 (some 9000000)]).1
      [Seq.mk 1 1 1000000 (some 9000000)].reverse := by
    have := Seq.reach_run [Seq.mk 1 1 1000000 (some 9000000)] (Seq.Reach.init (cfg := Seq.exCfg) (agid := none)) (by
      intro d hd
      rw [List.mem_singleton] at hd
      subst hd
      exact ⟨by simp [Seq.mk], by intro e he; simp [Seq.mk] at he ⊢; omega⟩) (by simp) (by decide) (by decide +kernel)
    simpa using this
  have hdocs : (Seq.run (Seq.State.init Seq.exCfg none) [Seq.mk 1 1 1000000 (some 9000000)]).1.docs =
      [Seq.mk 1 1 1000000 (some 9000000)] := by decide +kernel
  refine ⟨_, _, _, fun _ => exClocked (.elem { kind := .body } [.elem { kind := .div } [
      .elem { kind := .p, beg := sec 1, fin := sec 9 } [
        .text "who".toList,
        .elem { kind := .span, beg := sec 3, fin := sec 5 } [.text "me".toList]]]]), hr, ?_, ?_, ?_⟩
  · intro d hd
    rw [hdocs, List.mem_singleton] at hd
    subst hd
    refine ⟨?_, by decide, rfl⟩
    have h : (exSource (.elem { kind := .body } [.elem { kind := .div } [
      .elem { kind := .p, beg := sec 1, fin := sec 9 } [
        .text "who".toList,
        .elem { kind := .span, beg := sec 3, fin := sec 5 } [.text "me".toList]]]])).Sound (Seq.mk 1 1 1000000 (some 9000000)) 12000000 :=
      exSource_sound (sane_of rfl (by decide) (by decide)) (by decide) (by decide) (by decide)
        ⟨_, _, validateDoc_eq _ _, by decide +kernel, by decide +kernel⟩ _
    exact ⟨h.rd, h.avail, h.availMs, h.sane, h.shaped, h.wellTimed, h.inMs, .inr ⟨rfl, by omega⟩, h.refs, h.times⟩
  · rintro a ⟨ha, b, hb, hle, e, he, hend⟩
    rw [hdocs, List.mem_singleton] at ha
    subst ha
    have : Seq.resolvedEnd (Seq.run (Seq.State.init Seq.exCfg none) [Seq.mk 1 1 1000000 (some 9000000)]).1
      (Seq.mk 1 1 1000000 (some 9000000)) = some (some 9000000) := by decide +kernel
    rw [this] at he
    injection he with he
    have := hend 9000000 he.symm
    omega
  · have hx : ∃ out, deliver (Seq.run (Seq.State.init Seq.exCfg none) [Seq.mk 1 1 1000000 (some 9000000)]).1 (fun _ => exClocked (.elem { kind := .body } [.elem { kind := .div } [
      .elem { kind := .p, beg := sec 1, fin := sec 9 } [
        .text "who".toList,
        .elem { kind := .span, beg := sec 3, fin := sec 5 } [.text "me".toList]]]])) (some 1000000) (some 12000000) exHalf = some (.ok out) := by
      have : ((deliver (Seq.run (Seq.State.init Seq.exCfg none) [Seq.mk 1 1 1000000 (some 9000000)]).1 (fun _ => exClocked (.elem { kind := .body } [.elem { kind := .div } [
      .elem { kind := .p, beg := sec 1, fin := sec 9 } [
        .text "who".toList,
        .elem { kind := .span, beg := sec 3, fin := sec 5 } [.text "me".toList]]]])) (some 1000000) (some 12000000) exHalf).map
          (fun r => r.toOption.isSome)) = some true := by decide +kernel
      cases hd : deliver (Seq.run (Seq.State.init Seq.exCfg none) [Seq.mk 1 1 1000000 (some 9000000)]).1 (fun _ => exClocked (.elem { kind := .body } [.elem { kind := .div } [
      .elem { kind := .p, beg := sec 1, fin := sec 9 } [
        .text "who".toList,
        .elem { kind := .span, beg := sec 3, fin := sec 5 } [.text "me".toList]]]])) (some 1000000) (some 12000000) exHalf with
      | none => rw [hd] at this; simp at this
      | some r =>
        cases r with
        | error e => rw [hd] at this; simp [Except.toOption] at this
        | ok out => exact ⟨out, rfl⟩
    obtain ⟨out, hout⟩ := hx
    refine ⟨out, hout, ?_⟩
    have : ((deliver (Seq.run (Seq.State.init Seq.exCfg none) [Seq.mk 1 1 1000000 (some 9000000)]).1 (fun _ => exClocked (.elem { kind := .body } [.elem { kind := .div } [
      .elem { kind := .p, beg := sec 1, fin := sec 9 } [
        .text "who".toList,
        .elem { kind := .span, beg := sec 3, fin := sec 5 } [.text "me".toList]]]])) (some 1000000) (some 12000000) exHalf).map
          (fun r => r.toOption.map (fun o => linesPlayed o 11000000))) = some (some [[.text "who".toList]]) := by decide +kernel
    rw [hout] at this
    simpa [Except.toOption] using this

end Verif.Convert
