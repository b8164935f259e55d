import Verif.Convert.Chain
import Verif.Node.ReseqProps

/-! C86: what a player shows of the EBU-TT-D documents made from a sequence. -/
namespace Verif.Convert

open Verif.Doc Verif.Time

/-- What is extracted from a sequence can be converted. -/
theorem extracted_ready {cfg : Seq.Cfg} {agid : Option String} {s : Seq.State} {log : List Seq.Doc}
    (h : Seq.Reach cfg agid s log) (src : Seq.Doc → Source) (lo hi : Option Int) (top : Int)
    (hlo : ∀ b, lo = some b → b % 1000 = 0) (hhi : ∀ e, hi = some e → e ≤ top ∧ e % 1000 = 0)
    (hlh : ∀ b e, lo = some b → hi = some e → b ≤ e)
    (hopen : hi = none → ∀ d ∈ s.docs, ∃ e, Seq.resolvedEnd s d = some (some e) ∧ e ≤ top)
    (hg : ∀ d ∈ s.docs, (src d).Good d top) (hf : ∀ d ∈ s.docs, flat (src d).root = true)
    (m : Media) (hbase : ∀ d ∈ s.docs, (src d).base = m.base) (hz : m.base = .clock → ∃ b, lo = some b ∧ m.zero ≤ b)
    {o : SDoc} (ho : extractSegment s src lo hi = some (some o)) : SegReady m o.body := by
  obtain ⟨ws, hws, hcons, hfst, hin, _, _⟩ := Seq.C12_windows h lo hi hlh
  have hwd : ∀ w ∈ ws, w.1 ∈ s.docs ∧ Seq.ShownIn s lo hi w.1 = true := by
    intro w hw
    have : w.1 ∈ ws.map (·.1) := List.mem_map_of_mem hw
    rw [hfst, List.mem_filter] at this
    exact this
  have hbd := window_bounds h src lo hi top hlo hhi hopen (fun d hd => (hg d hd).toSound) hws hcons (fun w hw => (hwd w hw).1) (fun w hw => (hin w hw).2)
  have hends := windows_ends _ _ ws hws
  have hready : ∀ sd ∈ ws.filterMap (fun w => segmentOf (src w.1) w.1.num ⟨w.2.1, w.2.2⟩), SegReady m sd.body := by
    intro sd hsd
    rw [List.mem_filterMap] at hsd
    obtain ⟨w, hw, he⟩ := hsd
    obtain ⟨g1, we, g2, g3, g4⟩ := hbd w hw
    rw [g2] at he
    refine segmentOf_ready (hg w.1 (hwd w hw).1) w.1.num g1 g3 g4 m (hbase w.1 (hwd w hw).1) ?_ (hf w.1 (hwd w hw).1) sd he
    intro hc
    obtain ⟨b, hb, hzb⟩ := hz hc
    obtain ⟨b', hb', hle⟩ := (hin w hw).1 b hb
    refine ⟨⟨b', hb', by omega⟩, ?_⟩
    obtain ⟨r, hr, hwe⟩ := hends w hw
    have hsh := (hwd w hw).2
    rw [g2] at hwe
    have hbr : ∀ y, r = some y → b < y := by
      intro y hy
      unfold Seq.ShownIn at hsh
      rw [hr, hb, hy] at hsh
      simp only [Bool.and_eq_true, decide_eq_true_eq] at hsh
      exact hsh.2
    unfold Seq.winEnd at hwe
    cases hhh : hi with
    | none => rw [hhh] at hwe; have := hbr we hwe.symm; omega
    | some t =>
      have := hlh b t hb hhh
      rw [hhh] at hwe
      cases hrr : r with
      | none => rw [hrr] at hwe; simp at hwe; omega
      | some y =>
        have := hbr y hrr
        rw [hrr] at hwe
        simp only at hwe
        split at hwe <;> simp at hwe <;> omega
  rw [extractSegment, hws] at ho
  simp only [Option.map_some, Option.some.injEq] at ho
  cases hsegs : ws.filterMap (fun w => segmentOf (src w.1) w.1.num ⟨w.2.1, w.2.2⟩) with
  | nil => rw [hsegs] at ho; simp [splice] at ho
  | cons d ds =>
    rw [hsegs] at ho hready
    simp only [splice, Option.some.injEq] at ho
    rw [← ho]
    exact fold_ready ds ([], d) (hready d List.mem_cons_self) (fun d' hd' => hready d' (List.mem_cons_of_mem _ hd'))

/-- **C86**  For every reachable sequence and every window: the document extracted for the window is converted, and the EBU-TT-D
document shows, at every media time that corresponds to an instant of the window, exactly what the document active at that
instant shows, nothing where none is active, and nothing at other media times.  Assumes of the held documents what
`Source.Good` lists, the time base of the conversion, and the structure EBU-TT-D has room for (`C86_false_nested`); that with clock times the
window does not begin before media time zero (`C86_false_before_zero`) and that media time zero is a whole millisecond; and for a window without
an end that no held document lasts for ever. -/
theorem C86_played_is_active_partial {cfg : Seq.Cfg} {agid : Option String} {s : Seq.State} {log : List Seq.Doc}
    (h : Seq.Reach cfg agid s log) (src : Seq.Doc → Source) (lo hi : Option Int) (top : Int)
    (hlo : ∀ b, lo = some b → b % 1000 = 0) (hhi : ∀ e, hi = some e → e ≤ top ∧ e % 1000 = 0)
    (hlh : ∀ b e, lo = some b → hi = some e → b ≤ e)
    (hopen : hi = none → ∀ d ∈ s.docs, ∃ e, Seq.resolvedEnd s d = some (some e) ∧ e ≤ top)
    (hg : ∀ d ∈ s.docs, (src d).Good d top) (hf : ∀ d ∈ s.docs, flat (src d).root = true)
    (m : Media) (hrd : m.rd.Accurate) (hz0 : 0 ≤ m.zero) (hms : m.base = .clock → m.zero % 1000 = 0)
    (hbase : ∀ d ∈ s.docs, (src d).base = m.base) (hz : m.base = .clock → ∃ b, lo = some b ∧ m.zero ≤ b) :
    ∃ out, deliver s src lo hi m = some (.ok out) ∧
      ∀ u, 0 ≤ u →
        (Win.at ⟨lo, hi⟩ (u + m.shift) = true →
          (∀ a, Seq.ActiveAt s a (u + m.shift) → playedAt out u = shownIn (src a) (u + m.shift)) ∧
          ((∀ a, ¬ Seq.ActiveAt s a (u + m.shift)) → playedAt out u = [])) ∧
        (Win.at ⟨lo, hi⟩ (u + m.shift) = false → playedAt out u = []) := by
  obtain ⟨o, ho, hshow⟩ := C28_resegmented_shows_active_partial h src lo hi top hlo hhi hlh hopen hg
  have key : ∃ out, encode m o = .ok out ∧
      ∀ u, 0 ≤ u → playedAt out u = shownBy o (u + m.shift) := by
    cases o with
    | none => exact ⟨none, rfl, fun _ _ => rfl⟩
    | some d => exact ready_converted hrd hz0 hms (extracted_ready h src lo hi top hlo hhi hlh hopen hg hf m hbase hz ho)
  obtain ⟨out, hout, hplay⟩ := key
  refine ⟨out, by rw [deliver, ho, Option.map_some, hout], ?_⟩
  intro u hu
  rw [hplay u hu]
  exact hshow (u + m.shift)

/-! ### The segments of a resequencer -/

open Verif.Node

/-- What the conversion of an emitted segment shows at a media time; nothing if it cannot be converted. -/
def playedSeg (m : Media) (g : RSeg (Option SDoc)) (u : Int) : List (List Item) :=
  match encode m g.doc with
  | .ok o => playedAt o u
  | .error _ => []

theorem extract_emits {src : Seq.Doc → Source} {discard : Bool} {len : Int} {s : RState} {q : Seq.State}
    (hq : s.cons.seq = some (some q)) {seg : RSeg (Option SDoc)} (hseg : (reseq (extract src discard) len s .tick).2 = some seg) :
    ∃ o, extractSegment q src (some s.lastEnd) (some (s.lastEnd + len)) = some o ∧
      seg = ⟨s.counter, s.lastEnd, s.lastEnd + len, o⟩ := by
  unfold reseq extract at hseg
  rw [hq] at hseg
  simp only at hseg
  cases hx : extractSegment q src (some s.lastEnd) (some (s.lastEnd + len)) with
  | none => rw [hx] at hseg; simp at hseg
  | some o =>
    refine ⟨o, rfl, ?_⟩
    rw [hx] at hseg
    simp only at hseg
    cases discard with
    | false => simpa using hseg.symm
    | true =>
      simp only [if_true] at hseg
      cases hl : (Seq.lookupRange q.timeline (some s.lastEnd) (some (s.lastEnd + len))).getLast? with
      | none => rw [hl] at hseg; simpa using hseg.symm
      | some d =>
        rw [hl] at hseg
        simp only at hseg
        cases hd : Seq.discardBefore q d with
        | none => rw [hd] at hseg; simp at hseg
        | some q' => rw [hd] at hseg; simpa using hseg.symm

/-- **C86**  In every state a resequencer can reach: the segment that the timer produces is converted, and the converted document
shows at every media time that corresponds to an instant of its window exactly what the document then active shows,
and at other media times nothing. -/
theorem C86_segment_played_partial {src : Seq.Doc → Source} {discard : Bool} {start len : Int} (hl : 0 ≤ len)
    (hms : start % 1000 = 0 ∧ len % 1000 = 0) {s : RState} {log : List Seq.Doc}
    (h : RReach (extract src discard) start len s log) (q : Seq.State) (hq : s.cons.seq = some (some q))
    (hg : ∀ d ∈ q.docs, (src d).Good d (s.lastEnd + len)) (hf : ∀ d ∈ q.docs, flat (src d).root = true)
    (m : Media) (hrd : m.rd.Accurate) (hz0 : 0 ≤ m.zero) (hzms : m.base = .clock → m.zero % 1000 = 0)
    (hbase : ∀ d ∈ q.docs, (src d).base = m.base) (hz : m.base = .clock → m.zero ≤ start)
    (seg : RSeg (Option SDoc)) (hseg : (reseq (extract src discard) len s .tick).2 = some seg) :
    seg.lo = s.lastEnd ∧ seg.hi = s.lastEnd + len ∧ ∃ out, encode m seg.doc = .ok out ∧
      ∀ u, 0 ≤ u →
        (seg.lo ≤ u + m.shift ∧ u + m.shift < seg.hi →
          (∀ a, Seq.ActiveAt q a (u + m.shift) → playedAt out u = shownIn (src a) (u + m.shift)) ∧
          ((∀ a, ¬ Seq.ActiveAt q a (u + m.shift)) → playedAt out u = [])) ∧
        (¬(seg.lo ≤ u + m.shift ∧ u + m.shift < seg.hi) → playedAt out u = []) := by
  obtain ⟨n, hn⟩ := h.window
  have hnl : 0 ≤ (n : Int) * len := Int.mul_nonneg (by omega) hl
  have hmod : ((n : Int) * len) % 1000 = 0 := by
    rw [Int.mul_emod, hms.2]; simp
  obtain ⟨cfg, agid, l, hr, _⟩ := h.seq hl q hq
  obtain ⟨out, hout, hshow⟩ := C86_played_is_active_partial hr src (some s.lastEnd) (some (s.lastEnd + len)) (s.lastEnd + len)
    (by intro b hb; injection hb with hb; omega) (by intro e he; injection he with he; omega)
    (by intro b e hb he; injection hb with hb; injection he with he; omega) (by intro hc; simp at hc) hg hf m hrd hz0 hzms hbase
    (fun hc => ⟨_, rfl, by have := hz hc; omega⟩)
  obtain ⟨o, ho, rfl⟩ := extract_emits hq hseg
  refine ⟨rfl, rfl, out, ?_, ?_⟩
  · rw [deliver, ho] at hout
    simpa using hout
  · intro u hu
    have := hshow u hu
    simp only [Win.at, Bool.and_eq_true, decide_eq_true_eq, Bool.and_eq_false_iff, decide_eq_false_iff_not] at this
    refine ⟨this.1, fun hx => this.2 ?_⟩
    simp only at hx
    omega

theorem tick_seq {β : Type} {ex : Seq.State → Int → Int → Option β × Seq.State} {len : Int} {st : RState} {g : RSeg β}
    (h : (reseq ex len st .tick).2 = some g) : ∃ q, st.cons.seq = some (some q) := by
  unfold reseq at h
  cases hsq : st.cons.seq with
  | none => rw [hsq] at h; simp at h
  | some w =>
    cases w with
    | none => rw [hsq] at h; simp at h
    | some q => exact ⟨q, rfl⟩

theorem runR_emits {β : Type} (ex : Seq.State → Int → Int → Option β × Seq.State) (len : Int) : ∀ (evs : List REv) (s : RState),
    ∀ g ∈ (runR ex len s evs).2, ∃ k, evs[k]? = some .tick ∧ (reseq ex len (runR ex len s (evs.take k)).1 .tick).2 = some g
  | [], s, g, hg => by simp [runR] at hg
  | e :: es, s, g, hg => by
    simp only [runR, List.mem_append, Option.mem_toList] at hg
    rcases hg with hg | hg
    · refine ⟨0, ?_, ?_⟩
      · cases e with
        | deliver now d => simp [reseq] at hg
        | tick => rfl
      · cases e with
        | deliver now d => simp [reseq] at hg
        | tick => exact hg
    · obtain ⟨k, h1, h2⟩ := runR_emits ex len es _ g hg
      exact ⟨k + 1, by simpa using h1, by simpa [runR] using h2⟩

theorem Good.mono {src : Source} {d : Seq.Doc} {hi hi' : Int} (h : src.Good d hi) (hle : hi' ≤ hi) : src.Good d hi' :=
  ⟨⟨h.rd, h.avail, h.availMs, h.sane, h.shaped, h.wellTimed, h.inMs,
    h.base.imp id (fun hb => ⟨hb.1, by have := hb.2; omega⟩), h.refs, h.times⟩, h.unmixed⟩

/-- All that the segments emitted in a course of events show at media time `u`, after conversion. -/
def playedAll (m : Media) (segs : List (RSeg (Option SDoc))) (u : Int) : List (List Item) :=
  (segs.map (fun g => playedSeg m g u)).flatten

/-- From each segment to all of them: windows follow one another, so that at each instant one segment has something to show. -/
theorem run_played {γ : Type} {src : Seq.Doc → Source} {discard : Bool} {start len : Int} (hl : 0 < len) (evs : List REv)
    (segs : List (RSeg (Option SDoc))) (hsegs : segs = (runR (extract src discard) len { lastEnd := start } evs).2)
    (play : RSeg (Option SDoc) → List γ) (shows : Seq.Doc → List γ) (t : Int)
    (hone : ∀ g ∈ segs, (start ≤ g.lo ∧ g.hi ≤ start + segs.length * len) → ∃ k q, evs[k]? = some .tick ∧
      (runR (extract src discard) len { lastEnd := start } (evs.take k)).1.cons.seq = some (some q) ∧
        g.lo = (runR (extract src discard) len { lastEnd := start } (evs.take k)).1.lastEnd ∧ g.hi = g.lo + len ∧
        (g.lo ≤ t ∧ t < g.hi → (∀ a, Seq.ActiveAt q a t → play g = shows a) ∧ ((∀ a, ¬ Seq.ActiveAt q a t) → play g = [])) ∧
        (¬(g.lo ≤ t ∧ t < g.hi) → play g = [])) :
    (start ≤ t ∧ t < start + segs.length * len →
      ∃ k st q, evs[k]? = some .tick ∧ st = (runR (extract src discard) len { lastEnd := start } (evs.take k)).1 ∧
        st.lastEnd ≤ t ∧ t < st.lastEnd + len ∧ st.cons.seq = some (some q) ∧
        (∀ a, Seq.ActiveAt q a t → (segs.map play).flatten = shows a) ∧
        ((∀ a, ¬ Seq.ActiveAt q a t) → (segs.map play).flatten = [])) ∧
    (¬(start ≤ t ∧ t < start + segs.length * len) → (segs.map play).flatten = []) := by
  have hp := C39_numbers_and_windows (extract src discard) len { lastEnd := start } evs
  simp only [← hsegs] at hp
  have hget : ∀ i (hi : i < segs.length), segs[i].lo = start + i * len ∧ segs[i].hi = start + (i + 1) * len := by
    intro i hi
    have hm : (segs.map (fun g => (g.num, g.lo, g.hi)))[i]'(by simpa using hi) =
        ((List.range segs.length).map (plan 1 start len))[i]'(by simpa using hi) := by
      simp only [hp]
    simp only [List.getElem_map, List.getElem_range, plan, Prod.mk.injEq] at hm
    exact ⟨hm.2.1, hm.2.2⟩
  have hbounds : ∀ g ∈ segs, start ≤ g.lo ∧ g.hi ≤ start + segs.length * len := by
    intro g hg
    obtain ⟨i, hi, hgi⟩ := List.mem_iff_getElem.mp hg
    rw [← hgi, (hget i hi).1, (hget i hi).2]
    have e1 : 0 ≤ (i : Int) * len := Int.mul_nonneg (by omega) (by omega)
    have e2 : ((i : Int) + 1) * len ≤ segs.length * len := Int.mul_le_mul_of_nonneg_right (by omega) (by omega)
    omega
  have hone := fun g hg => hone g hg (hbounds g hg)
  have hdisj : segs.Pairwise (fun a b => ¬(decide (a.lo ≤ t ∧ t < a.hi) = true ∧ decide (b.lo ≤ t ∧ t < b.hi) = true)) := by
    rw [List.pairwise_iff_getElem]
    intro i j hi hj hij
    simp only [decide_eq_true_eq]
    rw [(hget i hi).1, (hget i hi).2, (hget j hj).1, (hget j hj).2]
    have : ((i : Int) + 1) * len ≤ j * len := Int.mul_le_mul_of_nonneg_right (by omega) (by omega)
    omega
  have hflat : (segs.map play).flatten = (segs.map (fun g => if decide (g.lo ≤ t ∧ t < g.hi) then play g else [])).flatten := by
    congr 1
    apply List.map_congr_left
    intro g hg
    by_cases hw : g.lo ≤ t ∧ t < g.hi
    · simp [hw]
    · obtain ⟨k, q, _, _, _, _, _, h3⟩ := hone g hg
      rw [h3 hw]
      simp
  rw [hflat]
  constructor
  · rintro ⟨h1, h2⟩
    obtain ⟨i, hi, h3, h4⟩ := plan_partition start len hl segs.length t h1 h2
    have hin : segs[i].lo ≤ t ∧ t < segs[i].hi := by
      rw [(hget i hi).1, (hget i hi).2]; exact ⟨h3, h4⟩
    obtain ⟨k, q, hk, hq, hlo, hhi, h5, _⟩ := hone segs[i] (List.getElem_mem hi)
    have huniq : ∀ w ∈ segs, decide (w.lo ≤ t ∧ t < w.hi) = true → w = segs[i] := by
      intro w hw hp
      obtain ⟨j, hj, rfl⟩ := List.mem_iff_getElem.mp hw
      rw [List.pairwise_iff_getElem] at hdisj
      rcases Nat.lt_trichotomy j i with hlt | heq | hgt
      · exact absurd ⟨hp, by simpa using hin⟩ (hdisj j i hj hi hlt)
      · simp [heq]
      · exact absurd ⟨by simpa using hin, hp⟩ (hdisj i j hi hj hgt)
    refine ⟨k, _, q, hk, rfl, by omega, by omega, hq, ?_, ?_⟩
    · intro a ha
      refine flatten_one (fun g => decide (g.lo ≤ t ∧ t < g.hi)) play _ segs hdisj ?_ ?_
      · intro w hw hp
        rw [huniq w hw hp]
        exact (h5 hin).1 a ha
      · exact fun _ => ⟨segs[i], List.getElem_mem hi, by simpa using hin⟩
    · intro hno
      refine flatten_one (fun g => decide (g.lo ≤ t ∧ t < g.hi)) play _ segs hdisj ?_ (fun hx => absurd rfl hx)
      intro w hw hp
      rw [huniq w hw hp]
      exact (h5 hin).2 hno
  · intro hout
    refine flatten_one (fun g => decide (g.lo ≤ t ∧ t < g.hi)) play _ segs hdisj ?_ (fun hx => absurd rfl hx)
    intro w hw hp
    exfalso
    have hb := hbounds w hw
    simp only [decide_eq_true_eq] at hp
    omega

/-- **C86**  For every course of events at a resequencer: at every media time that the segments emitted so far cover, all their
conversions played together show exactly what the document shows that was active at the corresponding instant when the
segment with that instant was extracted, and nothing if none was active; at other media times they show nothing. -/
theorem C86_whole_run_partial {src : Seq.Doc → Source} {discard : Bool} {start len : Int} (hl : 0 < len)
    (hms : start % 1000 = 0 ∧ len % 1000 = 0) (evs : List REv)
    (hrun : ∀ k, ∃ log, RReach (extract src discard) start len (runR (extract src discard) len { lastEnd := start } (evs.take k)).1 log)
    (m : Media) (hrd : m.rd.Accurate) (hz0 : 0 ≤ m.zero) (hzms : m.base = .clock → m.zero % 1000 = 0)
    (hz : m.base = .clock → m.zero ≤ start) (segs : List (RSeg (Option SDoc)))
    (hsegs : segs = (runR (extract src discard) len { lastEnd := start } evs).2)
    (hdocs : ∀ k q, (runR (extract src discard) len { lastEnd := start } (evs.take k)).1.cons.seq = some (some q) → ∀ d ∈ q.docs,
      (src d).Good d (start + segs.length * len) ∧ flat (src d).root = true ∧ (src d).base = m.base) (u : Int) (hu : 0 ≤ u) :
    (start ≤ u + m.shift ∧ u + m.shift < start + segs.length * len →
      ∃ k st q, evs[k]? = some .tick ∧ st = (runR (extract src discard) len { lastEnd := start } (evs.take k)).1 ∧
        st.lastEnd ≤ u + m.shift ∧ u + m.shift < st.lastEnd + len ∧ st.cons.seq = some (some q) ∧
        (∀ a, Seq.ActiveAt q a (u + m.shift) → playedAll m segs u = shownIn (src a) (u + m.shift)) ∧
        ((∀ a, ¬ Seq.ActiveAt q a (u + m.shift)) → playedAll m segs u = [])) ∧
    (¬(start ≤ u + m.shift ∧ u + m.shift < start + segs.length * len) → playedAll m segs u = []) := by
  refine run_played hl evs segs hsegs (fun g => playedSeg m g u) (fun a => shownIn (src a) (u + m.shift)) (u + m.shift) ?_
  intro g hg hb
  rw [hsegs] at hg
  obtain ⟨k, hk, htick⟩ := runR_emits _ _ _ _ g hg
  obtain ⟨log, hr⟩ := hrun k
  generalize hst : (runR (extract src discard) len { lastEnd := start } (evs.take k)).1 = st at *
  obtain ⟨q, hq⟩ := tick_seq htick
  obtain ⟨hglo, hghi⟩ : g.lo = st.lastEnd ∧ g.hi = st.lastEnd + len := by
    obtain ⟨o, _, rfl⟩ := extract_emits hq htick
    exact ⟨rfl, rfl⟩
  have hd := fun d hdm => hdocs k q (by rw [hst]; exact hq) d hdm
  obtain ⟨_, _, out, hout, hshow⟩ := C86_segment_played_partial (by omega) hms hr q hq
    (fun d hdm => Good.mono (hd d hdm).1 (by omega)) (fun d hdm => (hd d hdm).2.1) m hrd hz0 hzms
    (fun d hdm => (hd d hdm).2.2) hz g htick
  refine ⟨k, q, hk, by rw [hst]; exact hq, by rw [hst]; exact hglo, by omega, ?_⟩
  unfold playedSeg
  rw [hout]
  exact hshow u hu

/-! ### Example: clock times, media time zero at half a second -/

/-- A document with clock times. -/
def exClocked (root : Node Att) : Source := { exSource root with base := .clock }

/-- The sources of the two documents of the example of C28, with clock times. -/
def exClockSrc (d : Seq.Doc) : Source := exClocked (if d.num = 1 then exTree 1 9 "one" else exTree 5 8 "two")

def exHalf : Media := { base := .clock, zero := 500000, rd := exactReader }

theorem exClocked_good {root : Node Att} {d : Seq.Doc} {hi : Int} (h : (exSource root).Good d hi) (hh : hi < 100 * 3600000000) :
    (exClocked root).Good d hi :=
  ⟨⟨h.rd, h.avail, h.availMs, h.sane, h.shaped, h.wellTimed, h.inMs, .inr ⟨rfl, hh⟩, h.refs, h.times⟩, h.unmixed⟩

theorem exClock_facts {d : Seq.Doc} (hd : d ∈ exHeld) {hi : Int} (hh : hi < 100 * 3600000000) :
    (exClockSrc d).Good d hi ∧ flat (exClockSrc d).root = true ∧ (exClockSrc d).base = exHalf.base := by
  simp only [exHeld, List.mem_cons, List.not_mem_nil, or_false] at hd
  rcases hd with rfl | rfl
  · exact ⟨exClocked_good (exSource_good (sane_of rfl (by decide) (by decide)) (by decide) (by decide) (by decide) (by decide)
        ⟨_, _, validateDoc_eq _ _, by decide +kernel, by decide +kernel⟩ _) hh, by decide, rfl⟩
  · exact ⟨exClocked_good (exSource_good (sane_of rfl (by decide) (by decide)) (by decide) (by decide) (by decide) (by decide)
        ⟨_, _, validateDoc_eq _ _, by decide +kernel, by decide +kernel⟩ _) hh, by decide, rfl⟩

theorem exHeld_reach : Seq.Reach Seq.exCfg none (Seq.run (Seq.State.init Seq.exCfg none) exHeld).1 exHeld.reverse := by
  have := Seq.reach_run exHeld (Seq.Reach.init (cfg := Seq.exCfg) (agid := none)) (by
    intro d hd
    simp only [exHeld, List.mem_cons, List.not_mem_nil, or_false] at hd
    rcases hd with rfl | rfl <;> exact ⟨by simp [Seq.mk], by intro e he; simp [Seq.mk] at he ⊢; omega⟩)
    (by simp) (by decide) (by decide +kernel)
  simpa using this

/-- The hypotheses of `C86_played_is_active_partial` hold, and the converted document shows the two documents one after the other,
half a second earlier. -/
example : Seq.Reach Seq.exCfg none (Seq.run (Seq.State.init Seq.exCfg none) exHeld).1 exHeld.reverse ∧
    (Seq.run (Seq.State.init Seq.exCfg none) exHeld).1.docs = exHeld ∧
    (∀ d ∈ exHeld, (exClockSrc d).Good d 12000000 ∧ flat (exClockSrc d).root = true ∧ (exClockSrc d).base = exHalf.base) ∧
    exHalf.zero ≤ 2000000 ∧
    (deliver (Seq.run (Seq.State.init Seq.exCfg none) exHeld).1 exClockSrc (some 2000000) (some 12000000) exHalf).map
        (fun r => r.toOption.map (fun out => [1499999, 1500000, 4499999, 4500000, 7499999, 7500000].map (fun u => playedAt out u))) =
      some (some [[], [[.text "one".toList]], [[.text "one".toList]], [[.text "two".toList]], [[.text "two".toList]], []]) := by
  exact ⟨exHeld_reach, by decide +kernel, fun d hd => exClock_facts hd (by omega), by decide, by decide +kernel⟩

/-- The course of events: both documents, then two ticks. -/
def exEvents : List REv :=
  [.deliver 0 (some (exC (Seq.mk 1 1 1000000 (some 9000000)))), .deliver 0 (some (exC (Seq.mk 2 2 5000000 (some 8000000)))), .tick, .tick]

theorem exEvents_reach : ∀ k, ∃ log, RReach (extract exClockSrc true) 1000000 5000000
    (runR (extract exClockSrc true) 5000000 { lastEnd := 1000000 } (exEvents.take k)).1 log := by
  have hw : ∀ d ∈ exHeld, Seq.WellTimed (arrived 0 (exC d)) := by
    intro d hd
    simp only [exHeld, List.mem_cons, List.not_mem_nil, or_false] at hd
    rcases hd with rfl | rfl
    · exact ⟨by decide, by intro e he; simp [exC, arrived, Seq.mk] at he ⊢; omega⟩
    · exact ⟨by decide, by intro e he; simp [exC, arrived, Seq.mk] at he ⊢; omega⟩
  have h1 : RReach (extract exClockSrc true) 1000000 5000000 _ _ :=
    .deliver 0 (exC (Seq.mk 1 1 1000000 (some 9000000))) .init (hw _ (by simp [exHeld])) (by simp) (by
      intro o ho
      have : (consume 0 ({ lastEnd := 1000000 } : RState).cons (some (exC (Seq.mk 1 1 1000000 (some 9000000))))).2 = .added .inserted := by
        decide
      rw [this] at ho
      injection ho with ho
      subst ho; rfl)
  have h2 := RReach.deliver 0 (exC (Seq.mk 2 2 5000000 (some 8000000))) h1 (hw _ (by simp [exHeld])) (by decide) (by
      intro o ho
      have : (consume 0 (reseq (extract exClockSrc true) 5000000 ({ lastEnd := 1000000 } : RState)
          (.deliver 0 (some (exC (Seq.mk 1 1 1000000 (some 9000000)))))).1.cons
          (some (exC (Seq.mk 2 2 5000000 (some 8000000))))).2 = .added .inserted := by
        decide
      rw [this] at ho
      injection ho with ho
      subst ho; rfl)
  intro k
  match k with
  | 0 => exact ⟨_, .init⟩
  | 1 => exact ⟨_, h1⟩
  | 2 => exact ⟨_, h2⟩
  | 3 => exact ⟨_, h2.tick⟩
  | n + 4 =>
    have : exEvents.take (n + 4) = exEvents := List.take_of_length_le (by simp [exEvents])
    rw [this]
    exact ⟨_, h2.tick.tick⟩

/-- The hypotheses of `C86_whole_run_partial` hold, and the two segments played together show the two documents. -/
example : (∀ k, ∃ log, RReach (extract exClockSrc true) 1000000 5000000
      (runR (extract exClockSrc true) 5000000 { lastEnd := 1000000 } (exEvents.take k)).1 log) ∧
    (∀ k q, (runR (extract exClockSrc true) 5000000 { lastEnd := 1000000 } (exEvents.take k)).1.cons.seq = some (some q) →
      ∀ d ∈ q.docs, d ∈ exHeld) ∧
    (∀ d ∈ exHeld, (exClockSrc d).Good d 11000000 ∧ flat (exClockSrc d).root = true ∧ (exClockSrc d).base = exHalf.base) ∧
    (runR (extract exClockSrc true) 5000000 { lastEnd := 1000000 } exEvents).2.length = 2 ∧
    [499999, 500000, 4499999, 4500000, 5499999, 5500000, 7499999, 7500000].map
        (playedAll exHalf (runR (extract exClockSrc true) 5000000 { lastEnd := 1000000 } exEvents).2) =
      [[], [[.text "one".toList]], [[.text "one".toList]], [[.text "two".toList]], [[.text "two".toList]], [[.text "two".toList]],
        [[.text "two".toList]], []] := by
  refine ⟨exEvents_reach, ?_, fun d hd => exClock_facts hd (by omega), by decide +kernel, by decide +kernel⟩
  have hall : ∀ k, ((runR (extract exClockSrc true) 5000000 { lastEnd := 1000000 } (exEvents.take k)).1.cons.seq.getD none).all
      (fun q => q.docs.all (fun d => exHeld.contains d)) = true := by
    intro k
    match k with
    | 0 => decide +kernel
    | 1 => decide +kernel
    | 2 => decide +kernel
    | 3 => decide +kernel
    | n + 4 =>
      have : exEvents.take (n + 4) = exEvents := List.take_of_length_le (by simp [exEvents])
      rw [this]
      decide +kernel
  intro k q hq d hd
  have := hall k
  rw [hq] at this
  simp only [Option.getD_some, Option.all_some, List.all_eq_true] at this
  simpa using this d hd

/-! ### What the assumptions exclude -/

def errOf {α : Type} : Except CErr α → Option CErr
  | .ok _ => none
  | .error e => some e

theorem errOf_some {α : Type} {x : Option (Except CErr α)} {e : CErr} (h : x.map errOf = some (some e)) : x = some (.error e) := by
  cases x with
  | none => simp at h
  | some r =>
    cases r with
    | ok a => simp [errOf] at h
    | error e' => simp [errOf] at h; rw [h]

/-- A document with a div inside a div. -/
def exNested : Node Att :=
  .elem { kind := .body } [.elem { kind := .div } [.elem { kind := .div } [
    .elem { kind := .p, beg := sec 1, fin := sec 9 } [.text "one".toList]]]]

/-- A div inside a div is valid EBU-TT Live and the window can be extracted, but the result cannot be converted. -/
theorem C86_false_nested : ∃ (cfg : Seq.Cfg) (s : Seq.State) (log : List Seq.Doc) (src : Seq.Doc → Source) (a : Seq.Doc),
    Seq.Reach cfg none s log ∧ (∀ d ∈ s.docs, (src d).Good d 12000000 ∧ (src d).base = .clock) ∧
    Seq.ActiveAt s a 3000000 ∧ shownIn (src a) 3000000 = [[.text "one".toList]] ∧
    deliver s src (some 2000000) (some 12000000) exHalf = some (.error .unrecognized) := by
  have hr : Seq.Reach Seq.exCfg none (Seq.run (Seq.State.init Seq.exCfg none) [Seq.mk 1 1 1000000 (some 9000000)]).1
      [Seq.mk 1 1 1000000 (some 9000000)].reverse := by
    have := Seq.reach_run [Seq.mk 1 1 1000000 (some 9000000)] (Seq.Reach.init (cfg := Seq.exCfg) (agid := none)) (by
      intro d hd
      rw [List.mem_singleton] at hd
      subst hd
      exact ⟨by simp [Seq.mk], by intro e he; simp [Seq.mk] at he ⊢; omega⟩) (by simp) (by decide) (by decide +kernel)
    simpa using this
  have hdocs : (Seq.run (Seq.State.init Seq.exCfg none) [Seq.mk 1 1 1000000 (some 9000000)]).1.docs =
      [Seq.mk 1 1 1000000 (some 9000000)] := by decide +kernel
  refine ⟨_, _, _, fun _ => exClocked exNested, Seq.mk 1 1 1000000 (some 9000000), hr, ?_, ?_, by decide +kernel, errOf_some (by decide +kernel)⟩
  · intro d hd
    rw [hdocs, List.mem_singleton] at hd
    subst hd
    exact ⟨exClocked_good (exSource_good (sane_of rfl (by decide) (by decide)) (by decide) (by decide) (by decide) (by decide)
        ⟨_, _, validateDoc_eq _ _, by decide +kernel, by decide +kernel⟩ _) (by omega), rfl⟩
  · refine ⟨by rw [hdocs]; simp, 1000000, by decide +kernel, by omega, some 9000000, by decide +kernel, ?_⟩
    intro y hy; injection hy with hy; omega

/-- A window that begins before media time zero: the clock times before it have no media time, and the whole document is lost. -/
theorem C86_false_before_zero : ∃ (cfg : Seq.Cfg) (s : Seq.State) (log : List Seq.Doc) (src : Seq.Doc → Source) (m : Media) (a : Seq.Doc),
    Seq.Reach cfg none s log ∧ (∀ d ∈ s.docs, (src d).Good d 12000000 ∧ flat (src d).root = true ∧ (src d).base = .clock) ∧
    m.base = .clock ∧ m.rd.Accurate ∧ 0 ≤ m.zero ∧ m.zero % 1000 = 0 ∧ m.zero ≤ 4000000 ∧
    Seq.ActiveAt s a 4000000 ∧ shownIn (src a) 4000000 = [[.text "one".toList]] ∧
    deliver s src (some 2000000) (some 12000000) m = some (.error .badTime) := by
  have hdocs : (Seq.run (Seq.State.init Seq.exCfg none) exHeld).1.docs = exHeld := by decide +kernel
  refine ⟨_, _, _, exClockSrc, { base := .clock, zero := 3000000, rd := exactReader }, Seq.mk 1 1 1000000 (some 9000000), exHeld_reach, ?_,
    rfl, exactReader_accurate, by decide, by decide, by decide, ?_, by decide +kernel, errOf_some (by decide +kernel)⟩
  · intro d hd
    rw [hdocs] at hd
    exact exClock_facts hd (by omega)
  · refine ⟨by rw [hdocs]; simp [exHeld], 1000000, by decide +kernel, by omega, some 5000000, by decide +kernel, ?_⟩
    intro y hy; injection hy with hy; omega

end Verif.Convert
