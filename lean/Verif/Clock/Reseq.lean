import Verif.Clock.Model
import Verif.Node.ReseqProps

/-!
# C79: the resequencer and its clock

`convert_next_segment` is called by a `LoopingCall` with `now=False` (config/backend.py:253-256, config/node.py:151-158): the `n`-th
call is made `n` segment lengths after the loop was started, `begin` after the resequencer was made.  The window of the first segment begins at what the
clock said when the resequencer was made (node/consumer.py:93).  Simplification: the reactor makes its calls on time.
-/
namespace Verif.Clocks

open Verif.Node

/-- The number of calls of the timer among some events. -/
def ticks (es : List REv) : Nat := (es.filter (fun e => match e with | .tick => true | .deliver _ _ => false)).length

/-- What the clock would say, not going back at midnight, when the timer calls for the `n`-th time; `start` is what it said when the
resequencer was made, `begin` the time until the loop is started (config/node.py:117-127, 157-158). -/
def tickTime (start begin len : Int) (n : Nat) : Int := start + begin + n * len

/-- The calls of the timer that produced no segment. -/
def silent {β : Type} (ex : Seq.State → Int → Int → Option β × Seq.State) (len : Int) (s : RState) (es : List REv) : Nat :=
  ticks es - (runR ex len s es).2.length

theorem emitted_le {β : Type} (ex : Seq.State → Int → Int → Option β × Seq.State) (len : Int) : ∀ (es : List REv) (s : RState),
    (runR ex len s es).2.length ≤ ticks es ∧ (runR ex len s es).1.lastEnd = s.lastEnd + ((runR ex len s es).2.length : Int) * len
  | [], s => by simp [runR, ticks]
  | e :: es, s => by
    have ih := emitted_le ex len es (reseq ex len s e).1
    have step : ((reseq ex len s e).2.toList.length = 0 ∧ (reseq ex len s e).1.lastEnd = s.lastEnd) ∨
        ((reseq ex len s e).2.toList.length = 1 ∧ (reseq ex len s e).1.lastEnd = s.lastEnd + len ∧ e = .tick) := by
      cases e with
      | deliver now d => exact .inl ⟨rfl, rfl⟩
      | tick =>
        unfold reseq
        cases s.cons.seq with
        | none => exact .inl ⟨rfl, rfl⟩
        | some q =>
          cases q with
          | none => exact .inl ⟨rfl, rfl⟩
          | some q =>
            simp only
            cases hx : (ex q s.lastEnd (s.lastEnd + len)).1 with
            | none => exact .inl ⟨rfl, rfl⟩
            | some b => exact .inr ⟨rfl, rfl, trivial⟩
    simp only [runR, List.length_append]
    rcases step with ⟨h1, h2⟩ | ⟨h1, h2, h3⟩
    · rw [h1, ih.2, h2, Nat.zero_add]
      refine ⟨Nat.le_trans ih.1 ?_, rfl⟩
      unfold ticks
      rw [List.filter_cons]
      split <;> simp
    · rw [h1, ih.2, h2]
      refine ⟨?_, by push_cast; rw [Int.add_mul]; omega⟩
      have : ticks (e :: es) = ticks es + 1 := by rw [h3]; rfl
      omega

/-- **C79**: when a segment is sent, its window ended exactly as long ago as the start of the loop was put off, and a segment length more for
each earlier call that produced nothing. -/
theorem C79_delay {β : Type} (ex : Seq.State → Int → Int → Option β × Seq.State) (len start begin : Int) (s : RState) (hs : s.lastEnd = start)
    (es : List REv) (seg : RSeg β) (h : (reseq ex len (runR ex len s es).1 .tick).2 = some seg) :
    tickTime start begin len (ticks es + 1) - seg.hi = begin + silent ex len s es * len := by
  obtain ⟨h1, h2⟩ := emitted_le ex len es s
  have hhi : seg.hi = (runR ex len s es).1.lastEnd + len := by
    unfold reseq at h
    cases hq : (runR ex len s es).1.cons.seq with
    | none => rw [hq] at h; cases h
    | some q =>
      rw [hq] at h
      cases q with
      | none => cases h
      | some q =>
        simp only at h
        cases hx : (ex q (runR ex len s es).1.lastEnd ((runR ex len s es).1.lastEnd + len)).1 with
        | none => rw [hx] at h; cases h
        | some b => rw [hx] at h; cases h; rfl
  rw [hhi, h2, hs]
  unfold tickTime silent
  have hsub : ((ticks es - (runR ex len s es).2.length : Nat) : Int) = (ticks es : Int) - ((runR ex len s es).2.length : Int) := by omega
  rw [hsub, Int.sub_mul]
  push_cast
  rw [Int.add_mul]
  omega

/-- There is a sequence to take segments from. -/
def RState.ready (s : RState) : Prop := ∃ q, s.cons.seq = some (some q)

theorem ready_step {β : Type} {ex : Seq.State → Int → Int → Option β × Seq.State} {len : Int} {s : RState} (h : RState.ready s) (e : REv) :
    RState.ready (reseq ex len s e).1 := by
  obtain ⟨q, hq⟩ := h
  cases e with
  | deliver now d =>
    show ∃ q, (consume now s.cons d).1.seq = some (some q)
    cases d with
    | none => exact ⟨q, hq⟩
    | some d =>
      unfold consume
      simp only
      by_cases hf : s.cons.first.getD d.doc.seqId ≠ d.doc.seqId
      · rw [if_pos hf]; exact ⟨q, hq⟩
      · rw [if_neg hf, hq]
        exact ⟨_, rfl⟩
  | tick =>
    show ∃ q', (reseq ex len s .tick).1.cons.seq = some (some q')
    unfold reseq
    rw [hq]
    simp only
    cases (ex q s.lastEnd (s.lastEnd + len)).1 with
    | none => exact ⟨_, rfl⟩
    | some b => exact ⟨_, rfl⟩

theorem all_emit {β : Type} {ex : Seq.State → Int → Int → Option β × Seq.State} (hex : ∀ q lo hi, (ex q lo hi).1.isSome = true) {len : Int} :
    ∀ (es : List REv) (s : RState), RState.ready s → (runR ex len s es).2.length = ticks es ∧ RState.ready (runR ex len s es).1
  | [], _, h => ⟨rfl, h⟩
  | e :: es, s, h => by
    have ih := all_emit hex (len := len) es (reseq ex len s e).1 (ready_step h e)
    refine ⟨?_, ih.2⟩
    simp only [runR, List.length_append, ih.1]
    obtain ⟨q, hq⟩ := h
    cases e with
    | deliver now d => show 0 + ticks es = ticks es; omega
    | tick =>
      have hs := hex q s.lastEnd (s.lastEnd + len)
      have : (reseq ex len s .tick).2.toList.length = 1 := by
        unfold reseq
        rw [hq]
        simp only
        cases hx : (ex q s.lastEnd (s.lastEnd + len)).1 with
        | none => rw [hx] at hs; cases hs
        | some b => rfl
      rw [this]
      show 1 + ticks es = ticks es + 1
      omega

/-- **C79**: a resequencer that has a sequence from the beginning (an init document) and whose loop starts at once sends a segment at every
call of the timer, just when its window ends, as long as cutting succeeds.  Missing: documents that come later (`C79_false_late_document`), a later
start (`C79_false_later_start`) and midnight (`C79_false_midnight`). -/
theorem C79_live_partial {β : Type} {ex : Seq.State → Int → Int → Option β × Seq.State} (hex : ∀ q lo hi, (ex q lo hi).1.isSome = true) (len start : Int)
    (s : RState) (hs : s.lastEnd = start) (hq : RState.ready s) (es : List REv) :
    ∃ seg, (reseq ex len (runR ex len s es).1 .tick).2 = some seg ∧ tickTime start 0 len (ticks es + 1) = seg.hi := by
  obtain ⟨h1, q, h2⟩ := all_emit hex (len := len) es s hq
  have : ∃ seg, (reseq ex len (runR ex len s es).1 .tick).2 = some seg := by
    unfold reseq
    rw [h2]
    simp only
    have hs := hex q (runR ex len s es).1.lastEnd ((runR ex len s es).1.lastEnd + len)
    cases hx : (ex q (runR ex len s es).1.lastEnd ((runR ex len s es).1.lastEnd + len)).1 with
    | none => rw [hx] at hs; cases hs
    | some b => exact ⟨_, rfl⟩
  obtain ⟨seg, hseg⟩ := this
  refine ⟨seg, hseg, ?_⟩
  have := C79_delay ex len start 0 s hs es seg hseg
  unfold silent at this
  rw [h1] at this
  simp at this
  omega

/-- **C79**: once it has a sequence, a resequencer never falls further behind, nor catches up. -/
theorem C79_delay_stays {β : Type} {ex : Seq.State → Int → Int → Option β × Seq.State} (hex : ∀ q lo hi, (ex q lo hi).1.isSome = true) (len start begin : Int)
    (s : RState) (hs : s.lastEnd = start) (before after : List REv) (hq : RState.ready (runR ex len s before).1) :
    ∃ seg, (reseq ex len (runR ex len s (before ++ after)).1 .tick).2 = some seg ∧
      tickTime start begin len (ticks (before ++ after) + 1) - seg.hi = begin + silent ex len s before * len := by
  have happ : ∀ (xs ys : List REv) (s : RState), (runR ex len s (xs ++ ys)).1 = (runR ex len (runR ex len s xs).1 ys).1 ∧
      (runR ex len s (xs ++ ys)).2 = (runR ex len s xs).2 ++ (runR ex len (runR ex len s xs).1 ys).2 := by
    intro xs
    induction xs with
    | nil => intro ys s; exact ⟨rfl, rfl⟩
    | cons x xs ih =>
      intro ys s
      have := ih ys (reseq ex len s x).1
      simp only [List.cons_append, runR]
      exact ⟨this.1, by rw [this.2, List.append_assoc]⟩
  have htk : ticks (before ++ after) = ticks before + ticks after := by unfold ticks; rw [List.filter_append, List.length_append]
  obtain ⟨h1, q, h2⟩ := all_emit hex (len := len) after _ hq
  have hseg : ∃ seg, (reseq ex len (runR ex len s (before ++ after)).1 .tick).2 = some seg := by
    rw [(happ before after s).1]
    unfold reseq
    rw [h2]
    simp only
    have hs := hex q (runR ex len (runR ex len s before).1 after).1.lastEnd ((runR ex len (runR ex len s before).1 after).1.lastEnd + len)
    cases hx : (ex q (runR ex len (runR ex len s before).1 after).1.lastEnd ((runR ex len (runR ex len s before).1 after).1.lastEnd + len)).1 with
    | none => rw [hx] at hs; cases hs
    | some b => exact ⟨_, rfl⟩
  obtain ⟨seg, hseg⟩ := hseg
  refine ⟨seg, hseg, ?_⟩
  rw [C79_delay ex len start begin s hs _ seg hseg]
  have : silent ex len s (before ++ after) = silent ex len s before := by
    unfold silent
    rw [htk, (happ before after s).2, List.length_append, h1]
    omega
  rw [this]

/-! ### Non-vacuity -/

/-- A sequence-bearing resequencer, and an extraction that always succeeds. -/
example : RState.ready (runR (fun q _ _ => (some q.docs.length, q)) 2000000 { lastEnd := 0 } [.tick, .tick, .deliver 5 (some (exR 0 1 0 none))]).1 ∧
    silent (fun q _ _ => (some q.docs.length, q)) 2000000 { lastEnd := 0 } [.tick, .tick, .deliver 5 (some (exR 0 1 0 none))] = 2 := by
  exact ⟨⟨_, rfl⟩, by decide⟩

/-! ### Where it fails -/

/-- A document that comes while the timer is running makes everything late for ever: after `n` calls without a sequence, every segment is sent `n`
segment lengths after its window ended. -/
theorem C79_false_late_document (n : Nat) (after : List REv) :
    ∃ seg, (reseq (fun q _ _ => (some q.docs.length, q)) 2000000 (runR (fun q _ _ => (some q.docs.length, q)) 2000000 { lastEnd := 0 }
        ((List.replicate n .tick ++ [.deliver 5 (some (exR 0 1 0 none))]) ++ after)).1 .tick).2 = some seg ∧
      tickTime 0 0 2000000 (ticks ((List.replicate n .tick ++ [.deliver 5 (some (exR 0 1 0 none))]) ++ after) + 1) - seg.hi = n * 2000000 := by
  have hrep : ∀ n, (runR (fun q _ _ => (some q.docs.length, q)) 2000000 { lastEnd := 0 } (List.replicate n REv.tick)) = ({ lastEnd := 0 }, []) := by
    intro n
    induction n with
    | zero => rfl
    | succ n ih => rw [List.replicate_succ, runR]; simp only [reseq]; rw [ih]; rfl
  have happ : (runR (fun q _ _ => (some q.docs.length, q)) 2000000 { lastEnd := 0 } (List.replicate n .tick ++ [.deliver 5 (some (exR 0 1 0 none))])) =
      ((reseq (fun q _ _ => (some q.docs.length, q)) 2000000 { lastEnd := 0 } (.deliver 5 (some (exR 0 1 0 none)))).1, []) := by
    clear after
    induction n with
    | zero => rfl
    | succ n ih => rw [List.replicate_succ, List.cons_append, runR]; simp only [reseq] at ih ⊢; rw [ih]; rfl
  have hready : RState.ready (runR (fun q _ _ => (some q.docs.length, q)) 2000000 { lastEnd := 0 }
      (List.replicate n .tick ++ [.deliver 5 (some (exR 0 1 0 none))])).1 := by
    rw [happ]; exact ⟨_, rfl⟩
  obtain ⟨seg, h1, h2⟩ := C79_delay_stays (ex := fun q _ _ => (some q.docs.length, q)) (fun _ _ _ => rfl) 2000000 0 0 { lastEnd := 0 } rfl _ after hready
  refine ⟨seg, h1, ?_⟩
  rw [h2]
  have htk : ticks (List.replicate n .tick ++ [.deliver 5 (some (exR 0 1 0 none))]) = n := by
    clear h2 h1 hready happ seg after
    induction n with
    | zero => rfl
    | succ n ih =>
      have : ticks (List.replicate (n + 1) .tick ++ [.deliver 5 (some (exR 0 1 0 none))]) =
          ticks (List.replicate n .tick ++ [.deliver 5 (some (exR 0 1 0 none))]) + 1 := by
        rw [List.replicate_succ, List.cons_append]; rfl
      rw [this, ih]
  unfold silent
  rw [htk, happ]
  simp

/-- With `begin_output` the windows do not begin then but when the resequencer was made: everything is late by the time in between. -/
theorem C79_false_later_start {β : Type} {ex : Seq.State → Int → Int → Option β × Seq.State} (hex : ∀ q lo hi, (ex q lo hi).1.isSome = true)
    (len start begin : Int) (s : RState) (hs : s.lastEnd = start) (hq : RState.ready s) (es : List REv) :
    ∃ seg, (reseq ex len (runR ex len s es).1 .tick).2 = some seg ∧ tickTime start begin len (ticks es + 1) - seg.hi = begin := by
  obtain ⟨seg, h1, h2⟩ := C79_delay_stays hex len start begin s hs [] es hq
  refine ⟨seg, h1, ?_⟩
  rw [List.nil_append] at h2
  rw [h2]
  simp [silent, runR, ticks]

/-- The windows do not go back at midnight as the clock does: once they are beyond 24 hours, no segment shows anything of documents with times of
day, whatever is delivered. -/
theorem C79_false_midnight {src : Seq.Doc → Doc.Source} {discard : Bool} {start len : Int} (h0 : 0 ≤ start) (hl : 0 ≤ len)
    (hms : start % 1000 = 0 ∧ len % 1000 = 0) {s : RState} {log : List Seq.Doc}
    (h : RReach (extract src discard) start len s log) (q : Seq.State) (hq : s.cons.seq = some (some q))
    (hg : ∀ d ∈ q.docs, (src d).Good d (s.lastEnd + len)) (hday : day ≤ s.lastEnd)
    (htimes : ∀ d ∈ q.docs, ∃ e, d.cend = some e ∧ e ≤ day) :
    ∀ seg, (reseq (extract src discard) len s .tick).2 = some seg → ∀ t, Doc.shownBy seg.doc t = [] := by
  intro seg hseg t
  obtain ⟨e1, e2, e3, _⟩ := (C39_segments_show_active h0 hl hms h q hq hg).2 seg hseg
  by_cases hw : seg.lo ≤ t ∧ t < seg.hi
  · refine ((e3 t).1 hw).2 ?_
    intro a ha
    obtain ⟨cfg, agid, l, hr, _⟩ := h.seq hl q hq
    obtain ⟨hmem, _, _, _, e, he, hlt⟩ := ha
    rw [(Seq.C04_resolved_times hr a hmem).2] at he
    obtain ⟨x, hx, hxd⟩ := htimes a hmem
    rw [hx] at he
    cases hn : (Seq.nextDoc q.docs a).map (·.cbegin) with
    | none =>
      rw [hn] at he
      cases he
      have := hlt x rfl
      omega
    | some y =>
      rw [hn] at he
      cases he
      have := hlt (min x y) rfl
      omega
  · exact (e3 t).2 hw

/-- The hypotheses of `C79_false_midnight` are met by a resequencer that was made six seconds before midnight and got a document before and one
after. -/
example : ∃ s log q, RReach (extract Doc.exSrc false) 86394000000 6000000 s log ∧ s.cons.seq = some (some q) ∧ q.docs = Doc.exHeld ∧
    (∀ d ∈ q.docs, (Doc.exSrc d).Good d (s.lastEnd + 6000000)) ∧ day ≤ s.lastEnd ∧ (∀ d ∈ q.docs, ∃ e, d.cend = some e ∧ e ≤ day) := by
  have hw : ∀ d ∈ Doc.exHeld, Seq.WellTimed (arrived 0 (exC d)) := by
    intro d hd
    simp only [Doc.exHeld, List.mem_cons, List.not_mem_nil, or_false] at hd
    rcases hd with rfl | rfl
    · exact ⟨by decide, by intro e he; simp [exC, arrived, Seq.mk] at he ⊢; omega⟩
    · exact ⟨by decide, by intro e he; simp [exC, arrived, Seq.mk] at he ⊢; omega⟩
  have h1 : RReach (extract Doc.exSrc false) 86394000000 6000000 _ _ :=
    .deliver 0 (exC (Seq.mk 1 1 1000000 (some 9000000))) .init (hw _ (by simp [Doc.exHeld])) (by simp) (by
      intro o ho
      have : (consume 0 ({ lastEnd := 86394000000 } : RState).cons (some (exC (Seq.mk 1 1 1000000 (some 9000000))))).2 = .added .inserted := by
        decide
      rw [this] at ho
      injection ho with ho
      subst ho; rfl)
  have h2 := RReach.deliver 0 (exC (Seq.mk 2 2 5000000 (some 8000000))) (RReach.tick h1) (hw _ (by simp [Doc.exHeld])) (by decide) (by
      intro o ho
      have : (consume 0 (reseq (extract Doc.exSrc false) 6000000 (reseq (extract Doc.exSrc false) 6000000 ({ lastEnd := 86394000000 } : RState)
          (.deliver 0 (some (exC (Seq.mk 1 1 1000000 (some 9000000)))))).1 .tick).1.cons
          (some (exC (Seq.mk 2 2 5000000 (some 8000000))))).2 = .added .inserted := by
        decide +kernel
      rw [this] at ho
      injection ho with ho
      subst ho; rfl)
  have hheld : ∀ (q : Seq.State), q.docs = Doc.exHeld → ∀ d ∈ q.docs, d ∈ Doc.exHeld := fun q h1 d h2 => h1 ▸ h2
  refine ⟨_, _, _, h2, rfl, by decide +kernel, ?_, by decide +kernel, ?_⟩
  · intro d hd
    have hd : d ∈ Doc.exHeld := hheld _ (by decide +kernel) d hd
    simp only [Doc.exHeld, List.mem_cons, List.not_mem_nil, or_false] at hd
    rcases hd with rfl | rfl
    · exact Doc.exSource_good (Doc.sane_of rfl (by decide) (by decide)) (by decide) (by decide) (by decide) (by decide)
        ⟨_, _, Doc.validateDoc_eq _ _, by decide +kernel, by decide +kernel⟩ _
    · exact Doc.exSource_good (Doc.sane_of rfl (by decide) (by decide)) (by decide) (by decide) (by decide) (by decide)
        ⟨_, _, Doc.validateDoc_eq _ _, by decide +kernel, by decide +kernel⟩ _
  · intro d hd
    have hd : d ∈ Doc.exHeld := hheld _ (by decide +kernel) d hd
    simp only [Doc.exHeld, List.mem_cons, List.not_mem_nil, or_false] at hd
    rcases hd with rfl | rfl
    · exact ⟨9000000, rfl, by decide⟩
    · exact ⟨8000000, rfl, by decide⟩

end Verif.Clocks
