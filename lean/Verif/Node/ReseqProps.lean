import Verif.Node.SimpleProps

/-! C39: the resequencer's segments. -/
namespace Verif.Node

/-! ### Numbers and windows -/

/-- Specification: number and window of the `i`-th segment. -/
def plan (num : Nat) (start len : Int) (i : Nat) : Nat × Int × Int :=
  (num + i, start + i * len, start + (i + 1) * len)

theorem range_succ_map {γ : Type} (f : Nat → γ) (n : Nat) :
    (List.range (n + 1)).map f = f 0 :: (List.range n).map (fun i => f (i + 1)) := by
  rw [List.range_succ_eq_map, List.map_cons, List.map_map]
  rfl

/-- **C39**  Whatever is delivered and however often the timer runs, whether or not extractions fail in
between: the emitted segments are numbered consecutively and their windows follow each other without gap or
overlap, each of the configured length, from the configured start. -/
theorem C39_numbers_and_windows {β : Type} (ex : Seq.State → Int → Int → Option β × Seq.State) (len : Int) (s : RState)
    (evs : List REv) :
    let segs := (runR ex len s evs).2
    segs.map (fun g => (g.num, g.lo, g.hi)) = (List.range segs.length).map (plan s.counter s.lastEnd len) := by
  induction evs generalizing s with
  | nil => rfl
  | cons e es ih =>
    have step : ((reseq ex len s e).2 = none ∧ (reseq ex len s e).1.lastEnd = s.lastEnd ∧
          (reseq ex len s e).1.counter = s.counter) ∨
        ∃ b, (reseq ex len s e).2 = some ⟨s.counter, s.lastEnd, s.lastEnd + len, b⟩ ∧
          (reseq ex len s e).1.lastEnd = s.lastEnd + len ∧ (reseq ex len s e).1.counter = s.counter + 1 := by
      cases e with
      | deliver now d => exact .inl ⟨rfl, rfl, rfl⟩
      | tick =>
        unfold reseq
        cases s.cons.seq with
        | none => exact .inl ⟨rfl, rfl, rfl⟩
        | some q =>
          cases q with
          | none => exact .inl ⟨rfl, rfl, rfl⟩
          | some q =>
            simp only
            cases hx : (ex q s.lastEnd (s.lastEnd + len)).1 with
            | none => exact .inl ⟨rfl, rfl, rfl⟩
            | some b => exact .inr ⟨b, rfl, rfl, rfl⟩
    have ih := ih (reseq ex len s e).1
    simp only [runR]
    simp only at ih
    rcases step with ⟨h1, h2, h3⟩ | ⟨b, h1, h2, h3⟩
    · rw [h1, Option.toList_none, List.nil_append, ih, h2, h3]
    · rw [h1, Option.toList_some, List.singleton_append, List.map_cons, List.length_cons, range_succ_map, ih, h2, h3]
      congr 1
      · simp only [plan, Nat.add_zero]
        refine Prod.ext rfl (Prod.ext ?_ ?_)
        · simp
        · simp
      · refine List.map_congr_left ?_
        intro i _
        simp only [plan]
        refine Prod.ext ?_ (Prod.ext ?_ ?_)
        · simp only; omega
        · simp only [Int.natCast_add, Int.natCast_one, Int.add_mul]; omega
        · simp only [Int.natCast_add, Int.natCast_one, Int.add_mul]; omega

theorem plan_partition (start len : Int) (hl : 0 < len) : ∀ (n : Nat) (t : Int), start ≤ t → t < start + n * len →
    ∃ i, i < n ∧ start + i * len ≤ t ∧ t < start + (i + 1) * len
  | 0, t, h1, h2 => by simp at h2; omega
  | n + 1, t, h1, h2 => by
    rw [Int.natCast_add, Int.natCast_one, Int.add_mul] at h2
    by_cases h : t < start + n * len
    · obtain ⟨i, hi, h3⟩ := plan_partition start len hl n t h1 h
      exact ⟨i, by omega, h3⟩
    · exact ⟨n, by omega, by omega, by rw [Int.add_mul]; omega⟩

/-- **C39**  Every instant from the configured start to the end of the last emitted segment lies in the window
of exactly one emitted segment. -/
theorem C39_each_instant_once {β : Type} (ex : Seq.State → Int → Int → Option β × Seq.State) (len : Int) (hl : 0 < len)
    (s : RState) (evs : List REv) (t : Int) :
    let segs := (runR ex len s evs).2
    s.lastEnd ≤ t → t < s.lastEnd + segs.length * len →
    ∃ i, ∃ hi : i < segs.length, (segs[i].lo ≤ t ∧ t < segs[i].hi) ∧
      ∀ j, ∀ hj : j < segs.length, segs[j].lo ≤ t ∧ t < segs[j].hi → j = i := by
  intro segs h1 h2
  have hp := C39_numbers_and_windows ex len s evs
  have hget : ∀ i (hi : i < segs.length), segs[i].lo = s.lastEnd + i * len ∧ segs[i].hi = s.lastEnd + (i + 1) * len := by
    intro i hi
    have hm : (segs.map (fun g => (g.num, g.lo, g.hi)))[i]'(by simpa using hi) =
        ((List.range segs.length).map (plan s.counter s.lastEnd len))[i]'(by simpa using hi) := by
      simp only [segs, hp]
    simp only [List.getElem_map, List.getElem_range, plan, Prod.mk.injEq] at hm
    exact ⟨hm.2.1, hm.2.2⟩
  obtain ⟨i, hi, h3, h4⟩ := plan_partition s.lastEnd len hl segs.length t h1 h2
  refine ⟨i, hi, by rw [(hget i hi).1, (hget i hi).2]; exact ⟨h3, h4⟩, ?_⟩
  intro j hj hjt
  rw [(hget j hj).1, (hget j hj).2] at hjt
  rcases Nat.lt_trichotomy j i with h | h | h
  · exfalso
    have : ((j : Int) + 1) * len ≤ i * len := Int.mul_le_mul_of_nonneg_right (by omega) (by omega)
    omega
  · exact h
  · exfalso
    have : ((i : Int) + 1) * len ≤ j * len := Int.mul_le_mul_of_nonneg_right (by omega) (by omega)
    omega

/-! ### What the segments show -/

/-- Everything that can happen to a resequencer that starts at `start`: messages, timer calls, and
deliveries of documents with computed times in order, no document object twice, none of which makes
`add_document` fail with an internal error. -/
inductive RReach {β : Type} (ex : Seq.State → Int → Int → Option β × Seq.State) (start len : Int) :
    RState → List Seq.Doc → Prop
  | init : RReach ex start len { lastEnd := start } []
  | deliver {s log} (now : Int) (d : CDoc) : RReach ex start len s log → Seq.WellTimed (arrived now d) → arrived now d ∉ log →
      (∀ o, (consume now s.cons (some d)).2 = .added o → o.internal = false) →
      RReach ex start len (reseq ex len s (.deliver now (some d))).1 (arrived now d :: log)
  | msg {s log} (now : Int) : RReach ex start len s log → RReach ex start len (reseq ex len s (.deliver now none)).1 log
  | tick {s log} : RReach ex start len s log → RReach ex start len (reseq ex len s .tick).1 log

theorem lookup_last {cfg : Seq.Cfg} {agid : Option String} {q : Seq.State} {log : List Seq.Doc} (h : Seq.Reach cfg agid q log)
    {lo hi : Int} (hlh : lo ≤ hi) {d : Seq.Doc} (hd : (Seq.lookupRange q.timeline (some lo) (some hi)).getLast? = some d) :
    d ∈ q.docs ∧ d.cbegin < hi := by
  have hm := List.mem_of_getLast? hd
  rw [(Seq.C10_lookup_exact h (some lo) (some hi) (by
    intro a b ha hb; injection ha with ha; injection hb with hb; omega)).1, List.mem_filter] at hm
  refine ⟨hm.1, ?_⟩
  have := hm.2
  unfold Seq.ShownIn at this
  rw [(Seq.C04_resolved_times h d hm.1).1] at this
  simp only [Bool.and_eq_true, decide_eq_true_eq] at this
  exact this.1

/-- The window begins advance from the start. -/
theorem RReach.window {β : Type} {ex : Seq.State → Int → Int → Option β × Seq.State} {start len : Int} {s : RState}
    {log : List Seq.Doc} (h : RReach ex start len s log) : ∃ n : Nat, s.lastEnd = start + n * len := by
  induction h with
  | init => exact ⟨0, by simp⟩
  | deliver now d _ _ _ _ ih => exact ih
  | msg now _ ih => exact ih
  | @tick s log _ ih =>
    obtain ⟨n, hn⟩ := ih
    unfold reseq
    cases s.cons.seq with
    | none => exact ⟨n, hn⟩
    | some q =>
      cases q with
      | none => exact ⟨n, hn⟩
      | some q =>
        simp only
        cases (ex q s.lastEnd (s.lastEnd + len)).1 with
        | none => exact ⟨n, hn⟩
        | some b => exact ⟨n + 1, by simp [hn, Int.add_mul]; omega⟩

/-- What extraction with discarding does to the sequence. -/
theorem extract_cases {src : Seq.Doc → Doc.Source} {discard : Bool} {q : Seq.State} {lo hi : Int} :
    (extract src discard q lo hi).2 = q ∨
    ∃ d, (Seq.lookupRange q.timeline (some lo) (some hi)).getLast? = some d ∧
      Seq.discardBefore q d = some (extract src discard q lo hi).2 := by
  unfold extract
  cases Doc.extractSegment q src (some lo) (some hi) with
  | none => exact .inl rfl
  | some out =>
    simp only
    cases discard with
    | false => exact .inl rfl
    | true =>
      rw [if_pos rfl]
      cases hl : (Seq.lookupRange q.timeline (some lo) (some hi)).getLast? with
      | none => exact .inl rfl
      | some d =>
        simp only
        cases hd : Seq.discardBefore q d with
        | none => exact .inl rfl
        | some q' => exact .inr ⟨d, rfl, hd⟩

/-- The resequencer's sequence is in a reachable state. -/
theorem RReach.seq {src : Seq.Doc → Doc.Source} {discard : Bool} {start len : Int} (hl : 0 ≤ len) {s : RState}
    {log : List Seq.Doc} (h : RReach (extract src discard) start len s log) :
    ∀ q, s.cons.seq = some (some q) → ∃ cfg agid l, Seq.Reach cfg agid q l ∧ ∀ x ∈ l, x ∈ log := by
  induction h with
  | init => intro q hq; simp at hq
  | @deliver s log now d hr hwt hnew hint ih =>
    intro q hq
    simp only [reseq, consume] at hq
    by_cases hs : s.cons.first.getD d.doc.seqId ≠ d.doc.seqId
    · rw [if_pos hs] at hq
      obtain ⟨cfg, agid, l, h1, h2⟩ := ih q hq
      exact ⟨cfg, agid, l, h1, fun x hx => List.mem_cons_of_mem _ (h2 x hx)⟩
    · rw [if_neg hs] at hq
      simp only [consume, if_neg hs] at hint
      cases hst : s.cons.seq.getD (newSeq d.doc) with
      | none => rw [hst] at hq; simp at hq
      | some st =>
        rw [hst] at hq hint
        simp only [Option.some.injEq] at hq
        have hint' := hint _ rfl
        have hreach : ∃ cfg agid l, Seq.Reach cfg agid st l ∧ ∀ x ∈ l, x ∈ log := by
          cases hsq : s.cons.seq with
          | some w =>
            rw [hsq, Option.getD_some] at hst
            exact ih st (by rw [hsq, hst])
          | none =>
            rw [hsq, Option.getD_none] at hst
            unfold newSeq at hst
            rw [Option.map_eq_some_iff] at hst
            obtain ⟨c, _, rfl⟩ := hst
            exact ⟨c, d.doc.agid, [], .init, by simp⟩
        obtain ⟨cfg, agid, l, h1, h2⟩ := hreach
        rw [received_eq] at hint' hq
        refine ⟨cfg, agid, arrived now d :: l, ?_, ?_⟩
        · rw [← hq]
          exact .add h1 hwt (fun hm => hnew (h2 _ hm)) hint'
        · intro x hx
          rw [List.mem_cons] at hx ⊢
          exact hx.imp id (h2 x)
  | msg now _ ih => exact ih
  | @tick s log hr ih =>
    intro q hq
    unfold reseq at hq
    cases hsq : s.cons.seq with
    | none => rw [hsq] at hq; simp [hsq] at hq
    | some w =>
      cases w with
      | none => rw [hsq] at hq; simp [hsq] at hq
      | some q0 =>
        rw [hsq] at hq
        simp only at hq
        have hq' : (extract src discard q0 s.lastEnd (s.lastEnd + len)).2 = q := by
          cases hx : (extract src discard q0 s.lastEnd (s.lastEnd + len)).1 <;> rw [hx] at hq <;> simpa using hq
        obtain ⟨cfg, agid, l, h1, h2⟩ := ih q0 hsq
        rcases extract_cases (src := src) (discard := discard) (q := q0) (lo := s.lastEnd) (hi := s.lastEnd + len) with hc | ⟨d, hd, hc⟩
        · rw [hc] at hq'; rw [← hq']; exact ⟨cfg, agid, l, h1, h2⟩
        · rw [hq'] at hc
          exact ⟨cfg, agid, l, .drop h1 (lookup_last h1 (by omega) hd).1 hc, h2⟩

/-- **C39**  In every state a resequencer can reach, with documents that `Doc.Source.Good` describes and
times in whole milliseconds: a segment the timer produces shows, at every instant of its window, exactly
what the document active at that instant shows and nothing where none is active, and nothing outside its
window; which document is active from the end of the window on is not changed by producing it, even when the
resequencer discards the documents it has dealt with. -/
theorem C39_segments_show_active {src : Seq.Doc → Doc.Source} {discard : Bool} {start len : Int} (h0 : 0 ≤ start) (hl : 0 ≤ len)
    (hms : start % 1000 = 0 ∧ len % 1000 = 0) {s : RState} {log : List Seq.Doc}
    (h : RReach (extract src discard) start len s log) (q : Seq.State) (hq : s.cons.seq = some (some q))
    (hg : ∀ d ∈ q.docs, (src d).Good d (s.lastEnd + len)) :
    (discard = false → ∃ seg, (reseq (extract src discard) len s .tick).2 = some seg) ∧
    ∀ seg, (reseq (extract src discard) len s .tick).2 = some seg →
      seg.lo = s.lastEnd ∧ seg.hi = s.lastEnd + len ∧
      (∀ t, (seg.lo ≤ t ∧ t < seg.hi →
          (∀ a, Seq.ActiveAt q a t → Doc.shownBy seg.doc t = Doc.shownIn (src a) t) ∧
          ((∀ a, ¬ Seq.ActiveAt q a t) → Doc.shownBy seg.doc t = [])) ∧
        (¬(seg.lo ≤ t ∧ t < seg.hi) → Doc.shownBy seg.doc t = [])) ∧
      ∃ q', (reseq (extract src discard) len s .tick).1.cons.seq = some (some q') ∧
        ∀ t, seg.hi ≤ t → ∀ a, Seq.ActiveAt q' a t ↔ Seq.ActiveAt q a t := by
  obtain ⟨n, hn⟩ := h.window
  have hnl : 0 ≤ (n : Int) * len := Int.mul_nonneg (by omega) hl
  have hmod : ((n : Int) * len) % 1000 = 0 := by
    rw [Int.mul_emod, hms.2]; simp
  obtain ⟨cfg, agid, l, hr, _⟩ := h.seq hl q hq
  obtain ⟨out, hout, hshow⟩ := Doc.resegmented_closed hr src s.lastEnd (s.lastEnd + len) (by omega)
    (by omega) hg
  constructor
  · intro hd
    unfold reseq extract
    rw [hq]
    simp only
    rw [hout]
    simp [hd]
  · intro seg hseg
    unfold reseq at hseg ⊢
    rw [hq] at hseg ⊢
    simp only at hseg ⊢
    have hx : (extract src discard q s.lastEnd (s.lastEnd + len)).1 = some out ∨
        (extract src discard q s.lastEnd (s.lastEnd + len)).1 = none := by
      unfold extract
      rw [hout]
      simp only
      cases discard with
      | false => exact .inl rfl
      | true =>
        rw [if_pos rfl]
        cases hl : (Seq.lookupRange q.timeline (some s.lastEnd) (some (s.lastEnd + len))).getLast? with
        | none => exact .inl rfl
        | some d =>
          simp only
          cases hd : Seq.discardBefore q d with
          | none => exact .inr rfl
          | some q' => exact .inl rfl
    rcases hx with hx | hx
    · rw [hx] at hseg ⊢
      simp only [Option.some.injEq] at hseg
      subst hseg
      refine ⟨rfl, rfl, hshow, _, rfl, ?_⟩
      intro t ht a
      simp only at ht
      rcases extract_cases (src := src) (discard := discard) (q := q) (lo := s.lastEnd) (hi := s.lastEnd + len) with hc | ⟨d, hd, hc⟩
      · rw [hc]
      · obtain ⟨hdm, hdb⟩ := lookup_last hr (by omega) hd
        exact (Seq.C11_discard_before hr d hdm hc).2 t (by omega) a
    · rw [hx] at hseg
      simp at hseg

/-! ### Non-vacuity -/

/-- A document of sequence "s" with number 1 and computed times as given. -/
def exR (tag : Nat) (num : Nat) (b : Int) (e : Option Int) : CDoc :=
  { doc := { uid := tag, seqId := "s", num := num, timeBase := "media", clockMode := none, agid := none, cbegin := 0, cend := none }
    avail := some b, times := fun a => (a, e) }

example : ((runR (fun q _ _ => (some q.docs.length, q)) 2000000 { lastEnd := 4000000 }
    [.tick, .deliver 0 (some (exR 0 1 0 none)), .tick, .deliver 1 none, .deliver 5 (some (exR 1 2 5 none)), .tick]).2.map
      (fun g => (g.num, g.lo, g.hi, g.doc))) = [(1, 4000000, 6000000, 1), (2, 6000000, 8000000, 2)] := by decide

/-- A reachable resequencer that holds a sequence. -/
theorem exRReach (src : Seq.Doc → Doc.Source) : ∃ s log, RReach (extract src true) 0 2000000 s log ∧
    ∃ q, s.cons.seq = some (some q) ∧ q.docs.length = 1 := by
  refine ⟨_, _, .deliver 0 (exR 0 1 0 none) .init ?_ (by simp) ?_, ?_⟩
  · exact ⟨by decide, by intro e he; simp [exR, arrived] at he⟩
  · intro o ho
    have : (consume 0 ({ lastEnd := 0 } : RState).cons (some (exR 0 1 0 none))).2 = .added .inserted := by decide
    rw [this] at ho
    injection ho with ho
    subst ho
    rfl
  · exact ⟨_, rfl, by decide⟩

/-- A document of the example of C28 on its way to the resequencer. -/
def exC (d : Seq.Doc) : CDoc := { doc := d, avail := none, times := fun _ => (d.cbegin, d.cend) }

/-- The hypotheses of `C39_segments_show_active` are met by a discarding resequencer that got the two documents
of the example of C28, and its segments show them. -/
example : ∃ s log q, RReach (extract Doc.exSrc true) 0 6000000 s log ∧ s.cons.seq = some (some q) ∧ q.docs = Doc.exHeld ∧
    (∀ d ∈ q.docs, (Doc.exSrc d).Good d (s.lastEnd + 6000000)) ∧
    ((runR (extract Doc.exSrc true) 6000000 s [.tick, .tick]).2.map (fun g => [4999999, 5000000, 5999999, 6000000].map (fun t => Doc.shownBy g.doc t))) =
      [[[[.text "one".toList]], [[.text "two".toList]], [[.text "two".toList]], []],
       [[], [], [], [[.text "two".toList]]]] := by
  have hw : ∀ d ∈ Doc.exHeld, Seq.WellTimed (arrived 0 (exC d)) := by
    intro d hd
    simp only [Doc.exHeld, List.mem_cons, List.not_mem_nil, or_false] at hd
    rcases hd with rfl | rfl
    · exact ⟨by decide, by intro e he; simp [exC, arrived, Seq.mk] at he ⊢; omega⟩
    · exact ⟨by decide, by intro e he; simp [exC, arrived, Seq.mk] at he ⊢; omega⟩
  have h1 : RReach (extract Doc.exSrc true) 0 6000000 _ _ :=
    .deliver 0 (exC (Seq.mk 1 1 1000000 (some 9000000))) .init (hw _ (by simp [Doc.exHeld])) (by simp) (by
      intro o ho
      have : (consume 0 ({ lastEnd := 0 } : RState).cons (some (exC (Seq.mk 1 1 1000000 (some 9000000))))).2 = .added .inserted := by
        decide
      rw [this] at ho
      injection ho with ho
      subst ho; rfl)
  have h2 := RReach.deliver 0 (exC (Seq.mk 2 2 5000000 (some 8000000))) h1 (hw _ (by simp [Doc.exHeld])) (by decide) (by
      intro o ho
      have : (consume 0 (reseq (extract Doc.exSrc true) 6000000 ({ lastEnd := 0 } : RState)
          (.deliver 0 (some (exC (Seq.mk 1 1 1000000 (some 9000000)))))).1.cons
          (some (exC (Seq.mk 2 2 5000000 (some 8000000))))).2 = .added .inserted := by
        decide
      rw [this] at ho
      injection ho with ho
      subst ho; rfl)
  refine ⟨_, _, _, h2, rfl, by decide +kernel, ?_, by decide +kernel⟩
  intro d hd
  have hd : d ∈ Doc.exHeld := by
    have hx : ∀ (q : Seq.State), q.docs = Doc.exHeld → d ∈ q.docs → d ∈ Doc.exHeld := fun q h1 h2 => h1 ▸ h2
    exact hx _ (by decide +kernel) hd
  simp only [Doc.exHeld, List.mem_cons, List.not_mem_nil, or_false] at hd
  rcases hd with rfl | rfl
  · exact Doc.exSource_good (Doc.sane_of rfl (by decide) (by decide)) (by decide) (by decide) (by decide) (by decide)
      ⟨_, _, Doc.validateDoc_eq _ _, by decide +kernel, by decide +kernel⟩ _
  · exact Doc.exSource_good (Doc.sane_of rfl (by decide) (by decide)) (by decide) (by decide) (by decide) (by decide)
      ⟨_, _, Doc.validateDoc_eq _ _, by decide +kernel, by decide +kernel⟩ _

end Verif.Node
