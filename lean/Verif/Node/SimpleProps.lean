import Verif.Node.Simple
import Verif.Node.SeenProps
import Verif.Doc.ResegProps

/-
C36 (distributor), C38 (buffer delay), C40 (media time), C41 (one sequence), C52 (producer); C39 is in
`ReseqProps`.
-/
namespace Verif.Node

/-! ### C33 once more: exactly once within the window -/

/-- **C33**  As long as at most 100 documents of a sequence were processed, every delivered document of it
was processed exactly once. -/
theorem C33_exactly_once (h : List (String × Nat)) (sid : String)
    (hle : (accepted sid h (answers [] h).1).length ≤ 100) :
    (accepted sid h (answers [] h).1).Nodup ∧ ∀ n, (sid, n) ∈ h → n ∈ accepted sid h (answers [] h).1 := by
  induction h using snoc_induction with
  | nil => simp [answers, accepted]
  | snoc h d ih =>
    have happ : accepted sid (h ++ [d]) (answers [] (h ++ [d])).1 =
        accepted sid h (answers [] h).1 ++ accepted sid [d] [(checkSeen (answers [] h).2 d.1 d.2).1] := by
      rw [answers_append, accepted_append sid h [d] _ _ (answers_length [] h)]
      simp [answers]
    rw [happ] at hle ⊢
    rw [List.length_append] at hle
    obtain ⟨ih1, ih2⟩ := ih (by omega)
    have hall : lastOf 100 (accepted sid h (answers [] h).1) = accepted sid h (answers [] h).1 := by
      unfold lastOf
      rw [show (accepted sid h (answers [] h).1).length - 100 = 0 by omega]
      rfl
    by_cases hs : d.1 = sid
    · have hnew := C33_new_iff h sid d.2
      rw [hall] at hnew
      rw [hs]
      by_cases hm : d.2 ∈ accepted sid h (answers [] h).1
      · have : (checkSeen (answers [] h).2 sid d.2).1 = false := by
          rw [← Bool.not_eq_true, hnew]; exact fun hn => hn hm
        rw [this]
        simp only [accepted, Bool.false_eq_true, and_false, if_false, List.append_nil]
        refine ⟨ih1, ?_⟩
        intro n hn
        simp only [List.mem_append, List.mem_cons, List.not_mem_nil, or_false] at hn
        rcases hn with hn | hn
        · exact ih2 n hn
        · rw [← hn] at hm; exact hm
      · have : (checkSeen (answers [] h).2 sid d.2).1 = true := hnew.mpr hm
        rw [this]
        simp only [accepted, hs, and_self, if_true]
        refine ⟨?_, ?_⟩
        · rw [List.nodup_append]
          refine ⟨ih1, by simp, ?_⟩
          intro a ha b hb
          simp only [List.mem_cons, List.not_mem_nil, or_false] at hb
          subst hb
          intro e; subst e; exact hm ha
        · intro n hn
          simp only [List.mem_append, List.mem_cons, List.not_mem_nil, or_false] at hn ⊢
          rcases hn with hn | hn
          · exact .inl (ih2 n hn)
          · right; rw [← hn]
    · simp only [accepted, hs, false_and, if_false, List.append_nil]
      refine ⟨ih1, ?_⟩
      intro n hn
      simp only [List.mem_append, List.mem_cons, List.not_mem_nil, or_false] at hn
      rcases hn with hn | hn
      · exact ih2 n hn
      · exact absurd (by rw [← hn]) hs

/-! ### C36 -/

/-- Specification: the documents among the deliveries, by identifier and number. -/
def dDocs : List DIn → List (String × Nat)
  | [] => []
  | .doc sid num _ _ :: is => (sid, num) :: dDocs is
  | .msg _ _ :: is => dDocs is

/-- Specification: what the distributor has to emit, given for each document whether it is new: every new
document with the XML it came with, or else its own, and every message, in order. -/
def toEmit : List DIn → List Bool → List DOut
  | .doc sid num raw own :: is, true :: as => ⟨raw.getD own, sid, some num⟩ :: toEmit is as
  | .doc _ _ _ _ :: is, false :: as => toEmit is as
  | .msg sid own :: is, as => ⟨own, sid, none⟩ :: toEmit is as
  | _, _ => []

theorem runD_spec (h : List DIn) : ∀ s : Seen,
    (runD s h).2.filterMap id = toEmit h (answers s (dDocs h)).1 := by
  induction h with
  | nil => intro s; rfl
  | cons i is ih =>
    intro s
    cases i with
    | msg sid own => simp [runD, distribute, dDocs, toEmit, ih]
    | doc sid num raw own =>
      simp only [runD, distribute, dDocs, answers]
      cases hr : (checkSeen s sid num).1 <;> simp [toEmit, ih]

/-- **C36**  Whatever is delivered to a distributor, it emits exactly the new documents (those whose number
is not among the last 100 processed of their sequence, `C33_new_iff`), each with the very XML it came with,
and all messages, in the order of delivery. -/
theorem C36_distributes (h : List DIn) :
    (runD [] h).2.filterMap id = toEmit h (answers [] (dDocs h)).1 := runD_spec h []

/-- Specification: the numbers a stream of emitted data has in sequence `sid`. -/
def emittedNums (sid : String) : List DOut → List Nat
  | [] => []
  | o :: os => match o.num with
    | some n => if o.sid = sid then n :: emittedNums sid os else emittedNums sid os
    | none => emittedNums sid os

theorem emittedNums_toEmit (sid : String) : ∀ (h : List DIn) (as : List Bool), as.length = (dDocs h).length →
    emittedNums sid (toEmit h as) = accepted sid (dDocs h) as
  | [], as, _ => by simp [toEmit, emittedNums, dDocs, accepted]
  | .msg s own :: is, as, hl => by simpa [toEmit, emittedNums, dDocs] using emittedNums_toEmit sid is as hl
  | .doc s n raw own :: is, [], hl => by simp [dDocs] at hl
  | .doc s n raw own :: is, a :: as, hl => by
    have ih := emittedNums_toEmit sid is as (by simpa [dDocs] using hl)
    cases a
    · simpa [toEmit, dDocs, accepted] using ih
    · by_cases hs : s = sid
      · simp [toEmit, dDocs, accepted, emittedNums, hs, ih]
      · simp [toEmit, dDocs, accepted, emittedNums, hs, ih]

/-- **C36**  As long as a sequence has at most 100 emitted documents, each delivered document of it is
emitted exactly once. -/
theorem C36_exactly_once (h : List DIn) (sid : String)
    (hle : (emittedNums sid ((runD [] h).2.filterMap id)).length ≤ 100) :
    (emittedNums sid ((runD [] h).2.filterMap id)).Nodup ∧
    ∀ n raw own, DIn.doc sid n raw own ∈ h → n ∈ emittedNums sid ((runD [] h).2.filterMap id) := by
  rw [C36_distributes, emittedNums_toEmit sid h _ (answers_length [] _)] at hle ⊢
  obtain ⟨h1, h2⟩ := C33_exactly_once _ sid hle
  refine ⟨h1, ?_⟩
  intro n raw own hm
  apply h2
  clear h1 h2 hle
  induction h with
  | nil => simp at hm
  | cons i is ih =>
    rw [List.mem_cons] at hm
    rcases hm with rfl | hm
    · simp [dDocs]
    · cases i <;> simp [dDocs, ih hm]

example : (runD [] [.doc "a" 1 (some "<x/>") "<y/>", .msg "a" "m", .doc "b" 1 none "<b/>", .doc "a" 1 (some "<x/>") "<y/>",
      .doc "a" 2 none "<z/>"]).2.filterMap id =
    [⟨"<x/>", "a", some 1⟩, ⟨"m", "a", none⟩, ⟨"<b/>", "b", some 1⟩, ⟨"<z/>", "a", some 2⟩] := by decide

/-! ### C38 -/

/-- What was given out is kept apart from what is pending; both together are what arrived. -/
theorem buffer_inv {α : Type} {delay : Int} (hd : 0 ≤ delay) {s : BState α} (h : BRun delay s) :
    (s.out.map (·.2) ++ s.pending.map (·.2)).Perm (s.arrived.map (·.2)) ∧
    (∀ a ∈ s.arrived, a.1 ≤ s.now) ∧
    (∀ c ∈ s.pending, (c.1 - delay, c.2) ∈ s.arrived) ∧
    (∀ o ∈ s.out, ∃ t, (t, o.2) ∈ s.arrived ∧ t + delay ≤ o.1) ∧
    (s.arrived.Pairwise (fun a b => a.1 < b.1) →
      ∃ k, s.out.map (·.2) = (s.arrived.take k).map (·.2) ∧
        s.pending = (s.arrived.drop k).map (fun a => (a.1 + delay, a.2))) := by
  induction h with
  | start t => exact ⟨by simp, by simp, by simp, by simp, fun _ => ⟨0, by simp, by simp⟩⟩
  | @step s s' _ hst ih =>
    obtain ⟨i1, i2, i3, i4, i5⟩ := ih
    cases hst with
    | arrive t x hle =>
      refine ⟨?_, ?_, ?_, ?_, ?_⟩
      · simp only [List.map_append, List.map_cons, List.map_nil, ← List.append_assoc]
        exact List.Perm.append_right _ i1
      · intro a ha
        simp only [List.mem_append, List.mem_cons, List.not_mem_nil, or_false] at ha
        rcases ha with ha | rfl
        · have := i2 a ha; simp only at this ⊢; omega
        · exact Int.le_refl _
      · intro c hc
        simp only [List.mem_append, List.mem_cons, List.not_mem_nil, or_false] at hc ⊢
        rcases hc with hc | rfl
        · exact .inl (i3 c hc)
        · right; simp
      · intro o ho
        obtain ⟨u, h1, h2⟩ := i4 o ho
        exact ⟨u, List.mem_append_left _ h1, h2⟩
      · intro hp
        rw [List.pairwise_append] at hp
        obtain ⟨k, h1, h2⟩ := i5 hp.1
        have hlen : (s.out.length) = (s.arrived.take k).length := by
          have := congrArg List.length h1; simpa using this
        by_cases hk : k ≤ s.arrived.length
        · refine ⟨k, ?_, ?_⟩
          · rw [h1, List.take_append_of_le_length hk]
          · rw [h2, List.drop_append_of_le_length hk]; simp
        · have hk' : s.arrived.length ≤ k := by omega
          refine ⟨s.arrived.length, ?_, ?_⟩
          · rw [h1, List.take_of_length_le hk']; simp
          · rw [h2, List.drop_of_length_le hk']; simp
    | fire t p q due x hle hpend hdue hmin =>
      refine ⟨?_, ?_, ?_, ?_, ?_⟩
      · refine List.Perm.trans ?_ i1
        rw [hpend]
        simp only [List.map_append, List.map_cons, List.map_nil]
        rw [List.append_assoc]
        refine List.Perm.append_left _ ?_
        rw [List.singleton_append]
        exact List.perm_middle.symm
      · intro a ha; have := i2 a ha; simp only at this ⊢; omega
      · intro c hc
        refine i3 c ?_
        rw [hpend]
        simp only [List.mem_append, List.mem_cons] at hc ⊢
        rcases hc with hc | hc
        · exact .inl hc
        · exact .inr (.inr hc)
      · intro o ho
        simp only [List.mem_append, List.mem_cons, List.not_mem_nil, or_false] at ho
        rcases ho with ho | rfl
        · exact i4 o ho
        · refine ⟨due - delay, i3 (due, x) (by rw [hpend]; simp), by simp; omega⟩
      · intro hp
        obtain ⟨k, h1, h2⟩ := i5 hp
        rw [hpend] at h2
        -- the earliest pending call is the first one
        cases p with
        | nil =>
          simp only [List.nil_append] at h2 ⊢
          cases hdr : s.arrived.drop k with
          | nil => rw [hdr] at h2; simp at h2
          | cons a as =>
            rw [hdr] at h2
            simp only [List.map_cons, List.cons.injEq, Prod.mk.injEq] at h2
            have hk : k < s.arrived.length := by
              rcases Nat.lt_or_ge k s.arrived.length with h | h
              · exact h
              · rw [List.drop_of_length_le h] at hdr; simp at hdr
            have hget : s.arrived[k] = a := by
              have := List.drop_eq_getElem_cons hk
              rw [hdr] at this
              injection this with this _
              exact this.symm
            have hdr' : s.arrived.drop (k + 1) = as := by
              have := List.drop_eq_getElem_cons hk
              rw [hdr] at this
              injection this with _ this
              exact this.symm
            refine ⟨k + 1, ?_, ?_⟩
            · rw [List.take_succ_eq_append_getElem hk, hget]
              simp [h1, h2.1.2]
            · rw [hdr']; exact h2.2
        | cons c cs =>
          exfalso
          have hc : due ≤ c.1 := hmin c (by simp)
          have hpp : ((s.arrived.drop k).map (fun a => (a.1 + delay, a.2))).Pairwise (fun a b => a.1 < b.1) := by
            rw [List.pairwise_map]
            refine (hp.drop).imp ?_
            intro a b hab
            simp only; omega
          rw [← h2, List.cons_append, List.pairwise_cons] at hpp
          have := hpp.1 (due, x) (by simp)
          simp only at this
          omega

/-- **C38**  In every run of a buffer delay node, whatever the arrival times and however the reactor is
scheduled: nothing is given out that did not arrive, nothing twice, nothing earlier than the delay after
its arrival; everything that arrived is given out or still pending. -/
theorem C38_delayed_unchanged {α : Type} {delay : Int} (hd : 0 ≤ delay) {s : BState α} (h : BRun delay s) :
    (s.out.map (·.2) ++ s.pending.map (·.2)).Perm (s.arrived.map (·.2)) ∧
    ∀ o ∈ s.out, ∃ t, (t, o.2) ∈ s.arrived ∧ t + delay ≤ o.1 :=
  ⟨(buffer_inv hd h).1, (buffer_inv hd h).2.2.2.1⟩

/-- **C38**  If no two documents arrive at the very same instant, what is given out is always the first part
of what arrived, in the order of arrival. -/
theorem C38_in_arrival_order {α : Type} {delay : Int} (hd : 0 ≤ delay) {s : BState α} (h : BRun delay s)
    (hs : s.arrived.Pairwise (fun a b => a.1 < b.1)) : (s.out.map (·.2)) <+: (s.arrived.map (·.2)) := by
  obtain ⟨k, h1, _⟩ := (buffer_inv hd h).2.2.2.2 hs
  rw [h1, List.map_take]
  exact List.take_prefix _ _

/-- A run: two arrivals, the first is given out, then the second. -/
theorem exBuffer : BRun (α := String) 5 ⟨9, [], [(1, "a"), (3, "b")], [(6, "a"), (9, "b")]⟩ := by
  have h0 : BRun (α := String) 5 ⟨0, [], [], []⟩ := .start 0
  have h1 := BRun.step h0 (BStep.arrive 1 "a" (by decide))
  have h2 := BRun.step h1 (BStep.arrive 3 "b" (by decide))
  have h3 := BRun.step h2 (BStep.fire 6 [] [(8, "b")] 6 "a" (by decide) rfl (by decide) (by decide))
  exact BRun.step h3 (BStep.fire 9 [] [] 8 "b" (by decide) rfl (by decide) (by decide))

example : [(1, "a"), (3, "b")].Pairwise (fun (a b : Int × String) => a.1 < b.1) := by decide

/-- Documents that arrive at the very same instant may be given out in either order: the reactor orders its
calls by time alone. -/
theorem C38_same_instant_may_swap :
    ∃ s : BState String, BRun 5 s ∧ s.arrived = [(1, "a"), (1, "b")] ∧ s.out = [(6, "b"), (6, "a")] := by
  refine ⟨⟨6, [], [(1, "a"), (1, "b")], [(6, "b"), (6, "a")]⟩, ?_, rfl, rfl⟩
  have h0 : BRun (α := String) 5 ⟨0, [], [], []⟩ := .start 0
  have h1 := BRun.step h0 (BStep.arrive 1 "a" (by decide))
  have h2 := BRun.step h1 (BStep.arrive 1 "b" (by decide))
  have h3 := BRun.step h2 (BStep.fire 6 [(6, "a")] [] 6 "b" (by decide) rfl (by decide) (by decide))
  exact BRun.step h3 (BStep.fire 6 [] [] 6 "a" (by decide) rfl (by decide) (by decide))

/-! ### C40 -/

/-- **C40**  The encoder's media time maps the configured zero to zero, preserves durations and the order of
instants, and no two instants share a media time. -/
theorem C40_media_time (zero t u : Int) :
    (encoderClock zero).mediaTime zero = 0 ∧
    (encoderClock zero).mediaTime u - (encoderClock zero).mediaTime t = u - t ∧
    ((encoderClock zero).mediaTime t < (encoderClock zero).mediaTime u ↔ t < u) ∧
    ((encoderClock zero).mediaTime t = (encoderClock zero).mediaTime u ↔ t = u) := by
  simp only [encoderClock, Ref.mediaTime]
  omega

/-- **C40**  The same for a media clock adjusted to any reference: the reference point is hit, durations and
order are preserved. -/
theorem C40_any_reference (r : Ref) (t u : Int) :
    r.mediaTime r.loc = r.remote ∧ r.mediaTime u - r.mediaTime t = u - t ∧ (r.mediaTime t < r.mediaTime u ↔ t < u) := by
  simp only [Ref.mediaTime]
  omega

/-! ### C41 -/

/-- Specification: the documents among the deliveries, as received. -/
def cDocs : List (Int × Option CDoc) → List (Int × CDoc)
  | [] => []
  | (_, none) :: is => cDocs is
  | (t, some d) :: is => (t, d) :: cDocs is

theorem runC_append (s : CState) (h g : List (Int × Option CDoc)) :
    runC s (h ++ g) = ((runC (runC s h).1 g).1, (runC s h).2 ++ (runC (runC s h).1 g).2) := by
  induction h generalizing s with
  | nil => simp [runC]
  | cons d ds ih => simp [runC, ih]

theorem cDocs_append (h g : List (Int × Option CDoc)) : cDocs (h ++ g) = cDocs h ++ cDocs g := by
  induction h with
  | nil => rfl
  | cons i is ih =>
    obtain ⟨t, d⟩ := i
    cases d <;> simp [cDocs, ih]

/-- Specification: a document delivered at `now` has the times it gets from its own availability time, or from
`now` if it has none; everything else about it stays the same. -/
def arrived (now : Int) (d : CDoc) : Seq.Doc :=
  match d.avail with
  | some a => { d.doc with cbegin := (d.times a).1, cend := (d.times a).2 }
  | none => { d.doc with cbegin := (d.times now).1, cend := (d.times now).2 }

theorem received_eq (d : CDoc) (now : Int) : d.received now = arrived now d := by
  unfold CDoc.received arrived CDoc.at
  cases d.avail <;> rfl

example : arrived 7 ⟨Seq.mk 0 1 0 none, some 3, fun a => (a, none)⟩ = Seq.mk 0 1 3 none ∧
    arrived 7 ⟨Seq.mk 0 1 0 none, none, fun a => (a, none)⟩ = Seq.mk 0 1 7 none := by decide

/-- What the consumer holds: nothing before the first document; then the sequence of the first document's
identifier, with all delivered documents of that identifier added to it. -/
def heldAfter (h : List (Int × Option CDoc)) : CState :=
  match cDocs h with
  | [] => {}
  | (t, d) :: rest =>
    { first := some d.doc.seqId
      seq := some ((newSeq d.doc).map (fun st =>
        (Seq.run st ((((t, d) :: rest).filter (fun x => decide (x.2.doc.seqId = d.doc.seqId))).map
          (fun x => arrived x.1 x.2))).1)) }

theorem insertOrDiscard_docs {docs : List Seq.Doc} {tl : List Seq.Event} {d : Seq.Doc} {docs' : List Seq.Doc} {tl' : List Seq.Event}
    (h : Seq.insertOrDiscard docs tl d = .ok docs' tl') : docs' = Seq.insertDoc d docs := by
  unfold Seq.insertOrDiscard at h
  split at h
  · simp at h
  · simp at h
  · split at h
    · simp at h
    · simp at h
    · simp at h
    · injection h with h _; exact h.symm

/-- Adding a document brings no other document into the sequence. -/
theorem add_docs_subset (s : Seq.State) (d x : Seq.Doc) (h : x ∈ (Seq.addDocument s d).1.docs) : x ∈ s.docs ∨ x = d := by
  have hover : ∀ (s' s'' : Seq.State), Seq.overrideSequence s' d = some s'' → ∀ y ∈ s''.docs, y ∈ s'.docs := by
    intro s' s'' hs y hy
    unfold Seq.overrideSequence at hs
    simp only at hs
    split at hs
    · simp at hs
    · injection hs with hs
      rw [← hs] at hy
      exact (List.mem_filter.mp hy).1
  unfold Seq.addDocument at h
  split at h
  · exact .inl h
  · simp only at h
    split at h
    · rename_i hok
      simp only [Seq.inserted] at h
      rw [insertOrDiscard_docs hok, Seq.mem_insertDoc] at h
      exact h.symm
    · unfold Seq.discardNew at h
      split at h
      · exact .inl h
      · split at h
        · exact .inl h
        · exact .inl h
    · unfold Seq.retry at h
      split at h
      · exact .inl h
      · rename_i s' hs'
        split at h
        · rename_i hok
          simp only [Seq.inserted] at h
          rw [insertOrDiscard_docs hok, Seq.mem_insertDoc] at h
          exact h.symm.imp (hover _ _ hs' x) id
        all_goals exact .inl (hover _ _ hs' x h)
    · exact .inl h
    · exact .inl h

theorem Seq.run_snoc (s : Seq.State) (ds : List Seq.Doc) (d : Seq.Doc) :
    (Seq.run s (ds ++ [d])).1 = (Seq.addDocument (Seq.run s ds).1 d).1 := by
  induction ds generalizing s with
  | nil => simp [Seq.run]
  | cons x xs ih => simp only [List.cons_append, Seq.run]; exact ih _

/-- **C41**  Whatever is delivered to a consumer, its sequence is that of the first document, and it consists
of exactly the result of adding the documents of that identifier, in order of delivery: documents of other
sequences and messages never have any effect on it. -/
theorem C41_holds_first_sequence_only (h : List (Int × Option CDoc)) : (runC {} h).1 = heldAfter h := by
  induction h using snoc_induction with
  | nil => rfl
  | snoc h i ih =>
    obtain ⟨t, d⟩ := i
    rw [runC_append, ih]
    unfold heldAfter
    rw [cDocs_append]
    cases d with
    | none => simp [runC, consume, cDocs]
    | some d =>
      simp only [cDocs]
      cases hd : cDocs h with
      | nil =>
        simp only [List.nil_append, runC, consume, Option.getD_none]
        cases hn : newSeq d.doc with
        | none => simp
        | some st => simp [Seq.run, received_eq]
      | cons x rest =>
        obtain ⟨t0, d0⟩ := x
        simp only [List.cons_append, runC, consume, Option.getD_some]
        by_cases hs : d0.doc.seqId = d.doc.seqId
        · rw [if_neg (by simp [hs])]
          cases hn : newSeq d0.doc with
          | none => simp [hs]
          | some st =>
            simp only [Option.map_some]
            have hlast : ((t0, d0) :: (rest ++ [(t, d)])).filter (fun x => decide (x.2.doc.seqId = d0.doc.seqId)) =
                ((t0, d0) :: rest).filter (fun x => decide (x.2.doc.seqId = d0.doc.seqId)) ++ [(t, d)] := by
              rw [← List.cons_append, List.filter_append]
              simp [hs]
            rw [hlast, List.map_append, List.map_cons, List.map_nil, Seq.run_snoc]
            simp [hs, received_eq]
        · rw [if_pos (by simp [hs])]
          have hlast : ((t0, d0) :: (rest ++ [(t, d)])).filter (fun x => decide (x.2.doc.seqId = d0.doc.seqId)) =
              ((t0, d0) :: rest).filter (fun x => decide (x.2.doc.seqId = d0.doc.seqId)) := by
            rw [← List.cons_append, List.filter_append]
            have : ¬ d.doc.seqId = d0.doc.seqId := fun e => hs e.symm
            simp [this]
          rw [hlast]

/-- **C41**  A document is refused for its identifier exactly when it differs from that of the first document
delivered, and a refusal leaves the consumer unchanged. -/
theorem C41_refuses_other_sequences (h : List (Int × Option CDoc)) (t : Int) (d : CDoc) :
    ((consume t (runC {} h).1 (some d)).2 = .otherSequence ↔
      ∃ t0 d0 rest, cDocs h = (t0, d0) :: rest ∧ d0.doc.seqId ≠ d.doc.seqId) ∧
    ((consume t (runC {} h).1 (some d)).2 = .otherSequence → (consume t (runC {} h).1 (some d)).1 = (runC {} h).1) := by
  have hres : ∀ s : CState, ((consume t s (some d)).2 = .otherSequence ↔ s.first.getD d.doc.seqId ≠ d.doc.seqId) ∧
      ((consume t s (some d)).2 = .otherSequence → (consume t s (some d)).1 = s) := by
    intro s
    unfold consume
    simp only
    by_cases hs : s.first.getD d.doc.seqId ≠ d.doc.seqId
    · simp [hs]
    · rw [if_neg hs]
      cases s.seq.getD (newSeq d.doc) <;> simp [hs]
  refine ⟨?_, (hres _).2⟩
  rw [(hres _).1, C41_holds_first_sequence_only]
  unfold heldAfter
  cases hd : cDocs h with
  | nil => simp
  | cons x rest =>
    obtain ⟨t0, d0⟩ := x
    simp only [Option.getD_some, ne_eq]
    constructor
    · intro hne; exact ⟨t0, d0, rest, rfl, hne⟩
    · rintro ⟨t1, d1, r1, he, hne⟩
      injection he with he _
      injection he with _ he
      rw [he]; exact hne

/-- **C41**  Every document the consumer holds carries the identifier of the first document delivered. -/
theorem C41_held_documents (h : List (Int × Option CDoc)) (st : Seq.State) (hst : (runC {} h).1.seq = some (some st)) :
    ∃ t0 d0 rest, cDocs h = (t0, d0) :: rest ∧ ∀ x ∈ st.docs, x.seqId = d0.doc.seqId := by
  rw [C41_holds_first_sequence_only] at hst
  unfold heldAfter at hst
  cases hd : cDocs h with
  | nil => rw [hd] at hst; simp at hst
  | cons x rest =>
    obtain ⟨t0, d0⟩ := x
    rw [hd] at hst
    simp only [Option.some.injEq] at hst
    rw [Option.map_eq_some_iff] at hst
    obtain ⟨st0, hn, hrun⟩ := hst
    refine ⟨t0, d0, rest, rfl, ?_⟩
    subst hrun
    have hcfg : st0.cfg.seqId = d0.doc.seqId ∧ st0.docs = [] := by
      unfold newSeq at hn
      rw [Option.map_eq_some_iff] at hn
      obtain ⟨c, hc, rfl⟩ := hn
      unfold clockOf at hc
      refine ⟨?_, rfl⟩
      simp only [Seq.State.init]
      split at hc
      · split at hc
        · injection hc with hc; rw [← hc]
        · split at hc
          · injection hc with hc; rw [← hc]
          · simp at hc
      · split at hc
        · injection hc with hc; rw [← hc]
        · split at hc
          · injection hc with hc; rw [← hc]
          · simp at hc
    have hadd : ∀ (l : List Seq.Doc) (s : Seq.State), (∀ x ∈ s.docs, x.seqId = d0.doc.seqId) → (∀ x ∈ l, x.seqId = d0.doc.seqId) →
        ∀ x ∈ (Seq.run s l).1.docs, x.seqId = d0.doc.seqId := by
      intro l
      induction l with
      | nil => intro s h1 _; exact h1
      | cons y ys ih =>
        intro s h1 h2
        simp only [Seq.run]
        refine ih _ ?_ (fun x hx => h2 x (List.mem_cons_of_mem _ hx))
        intro x hx
        rcases add_docs_subset s y x hx with hx | hx
        · exact h1 x hx
        · rw [hx]; exact h2 y List.mem_cons_self
    refine hadd _ _ (by rw [hcfg.2]; simp) ?_
    intro x hx
    rw [List.mem_map] at hx
    obtain ⟨y, hy, rfl⟩ := hx
    rw [List.mem_filter] at hy
    rw [← received_eq]
    simpa [CDoc.received, CDoc.at] using hy.2

end Verif.Node
