/-
Model of the document sequence: `/repo/ebu_tt_live/documents/ebutt3.py`
(`TimingEvent`, `TimelineUtilMixin`, `EBUTT3DocumentSequence`).

Conventions
* `timedelta` is an integer number of microseconds (`Int`).
* Exceptions are values (`Outcome`).
* Python compares documents (`==`, `!=`, `<`) by sequence number (`ComparableMixin`,
  ebutt3.py:325-330, utils.py:14-63); dictionaries and sets hash them by object identity
  (Python 2 default hash).  `Doc.uid` stands for the object identity.
* `sortedcontainers.SortedListWithKey` is a list ordered by key; `add` is bisect-right,
  `irange` selects the keys in an inclusive range in list order.
* Logging and the `verbose` printing are left out.
-/
namespace Verif.Seq

/-- The parts of an `EBUTT3Document` the sequence looks at (ebutt3.py:262-445).  The computed
times are those stored by `validate` (ebutt3.py:503-513). -/
structure Doc where
  /-- object identity -/
  uid : Nat
  /-- `sequence_identifier` -/
  seqId : String
  /-- `sequence_number` -/
  num : Nat
  /-- `time_base` -/
  timeBase : String
  /-- `clock_mode` -/
  clockMode : Option String
  /-- `authors_group_identifier` -/
  agid : Option String
  /-- `computed_begin_time` -/
  cbegin : Int
  /-- `computed_end_time` -/
  cend : Option Int
  deriving DecidableEq, Repr

/-- `TimingEventBegin` / `TimingEventEnd` (ebutt3.py:54-84). -/
inductive Kind where
  | bgn
  | fin
  deriving DecidableEq, Repr

/-- `TimingEvent` (ebutt3.py:26-51). -/
structure Event where
  kind : Kind
  doc : Doc
  time : Int
  deriving DecidableEq, Repr

/-- `TimingEventBegin(document)` (ebutt3.py:60-61). -/
def beginEvent (d : Doc) : Event := ⟨.bgn, d, d.cbegin⟩

/-- `SortedListWithKey.add` with `key = item.when` (ebutt3.py:97-100): insert to the right of
all entries whose key is not greater. -/
def insertEv (e : Event) : List Event → List Event
  | [] => [e]
  | x :: xs => if e.time < x.time then e :: x :: xs else x :: insertEv e xs

/-- `SortedSet.add` with `key = sequence_number` (ebutt3.py:602). -/
def insertDoc (d : Doc) : List Doc → List Doc
  | [] => [d]
  | x :: xs => if d.num < x.num then d :: x :: xs else x :: insertDoc d xs

/-- Fixed attributes of the sequence (ebutt3.py:595-603) and of its reference clock. -/
structure Cfg where
  seqId : String
  timeBase : String
  clockMode : Option String
  deriving DecidableEq, Repr

/-- `EBUTT3DocumentSequence` (ebutt3.py:585-603).  `gone` records the documents on which
`discard_document` was called, with the `_resolved_end_time` it stored (ebutt3.py:411-424);
their `_resolved_begin_time` is their computed begin. -/
structure State where
  cfg : Cfg
  agid : Option String
  lastNum : Nat
  docs : List Doc
  timeline : List Event
  gone : List (Doc × Int)
  deriving DecidableEq, Repr

/-- `EBUTT3DocumentSequence.__init__` (ebutt3.py:595-603). -/
def State.init (cfg : Cfg) (agid : Option String) : State :=
  { cfg := cfg, agid := agid, lastNum := 0, docs := [], timeline := [], gone := [] }

/-- What a call of `add_document` ends with. -/
inductive Outcome where
  /-- returns normally, the document is in the sequence -/
  | inserted
  /-- returns normally, the document was discarded -/
  | discarded
  /-- `IncompatibleSequenceError` -/
  | incompatible
  /-- `SequenceNumberCollisionError` -/
  | collision
  /-- `UnexpectedAuthorsGroupError` -/
  | authorsGroup
  /-- `ValueError(ERR_DOCUMENT_SEQUENCE_INCONSISTENCY)` or `ValueError()` -/
  | valueError
  /-- `TypeError`: comparison of `None` with a `timedelta` -/
  | typeError
  /-- `LookupError` / `KeyError` -/
  | lookupError
  /-- `DocumentDiscardedError` escaping from the retry (ebutt3.py:909) -/
  | discardEscapes
  /-- `SequenceOverridden` escaping from the retry (ebutt3.py:909) -/
  | overrideEscapes
  deriving DecidableEq, Repr

/-- The call returned normally. -/
def Outcome.ok : Outcome → Bool
  | .inserted | .discarded => true
  | _ => false

/-- The call refused the document for one of the documented reasons. -/
def Outcome.refused : Outcome → Bool
  | .incompatible | .collision | .authorsGroup => true
  | _ => false

/-- The call failed with an error that is not part of the documented interface. -/
def Outcome.internal (o : Outcome) : Bool := !o.ok && !o.refused

/-- The existing-document test of `_check_document_compatibility` (ebutt3.py:652-662):
`bisect_key_left`, then look at the document at that position. -/
def existsNum (docs : List Doc) (n : Nat) : Bool :=
  match docs.dropWhile (fun x => x.num < n) with
  | x :: _ => x.num == n
  | [] => false

/-- `_check_document_compatibility` (ebutt3.py:641-691).  `.ok a` carries the (possibly newly
adopted) authors group identifier. -/
def checkCompat (s : State) (d : Doc) : Except Outcome (Option String) :=
  if s.cfg.seqId ≠ d.seqId ∨ s.cfg.timeBase ≠ d.timeBase then .error .incompatible
  else if s.cfg.timeBase = "clock" ∧ s.cfg.clockMode ≠ d.clockMode then .error .incompatible
  else if existsNum s.docs d.num then .error .collision
  else match d.agid with
    | none => .ok s.agid
    | some g =>
      if g = "" then .ok s.agid
      else match s.agid with
        | some g' => if g ≠ g' then .error .authorsGroup else .ok s.agid
        | none => .ok (some g)

/-- Result of the backward loop of `_insert_or_discard`. -/
inductive BackRes where
  /-- `DocumentDiscardedError` with `offending_document` -/
  | discarded (by' : Doc)
  | inconsistent
  | ok (beginsBefore : Option Event)
  deriving DecidableEq, Repr

/-- Backward loop of `_insert_or_discard` (ebutt3.py:740-763).  The list argument is the event
iterator `irange(maximum=this_begins, reverse=True)`; `ef` is the document of `_end_found`. -/
def scanBack (n : Nat) (ef : Option Doc) : List Event → BackRes
  | [] => .ok none
  | it :: rest =>
    if it.doc.num > n then .discarded it.doc
    else match it.kind with
      | .bgn =>
        match ef with
        | none => .ok (some it)
        | some x => if x.num ≠ it.doc.num then .ok (some it) else .ok none
      | .fin =>
        match ef with
        | some _ => .inconsistent
        | none => scanBack n (some it.doc) rest

/-- Result of the forward loop of `_insert_or_discard`. -/
inductive FwdRes where
  | inconsistent
  /-- `SequenceOverridden` -/
  | overridden
  /-- `None > timedelta` (ebutt3.py:777 with an open ended document) -/
  | typeError
  | ok (endsAfter : Option Event) (trimsThis : Option Event)
  deriving DecidableEq, Repr

/-- Forward loop of `_insert_or_discard` (ebutt3.py:765-779) over `irange(this_begins)`. -/
def scanFwd (d : Doc) (bb : Option Event) (ea : Option Event) : List Event → FwdRes
  | [] => .ok ea none
  | it :: rest =>
    match it.kind with
    | .fin =>
      match bb with
      | some p =>
        if it.doc.num ≠ p.doc.num ∧ it.time ≠ p.time then .inconsistent
        else scanFwd d bb (some it) rest
      | none => scanFwd d bb (some it) rest
    | .bgn =>
      if d.num > it.doc.num then .overridden
      else if it.doc.num > d.num then
        match d.cend with
        | none => .typeError
        | some e => if e > it.time then .ok ea (some it) else .ok ea none
      else scanFwd d bb ea rest

/-- Result of `_insert_or_discard`. -/
inductive InsRes where
  | discarded (by' : Doc)
  | overridden
  | valueError
  | typeError
  | ok (docs : List Doc) (timeline : List Event)
  deriving DecidableEq, Repr

/-- The part of `_insert_or_discard` after the loops (ebutt3.py:790-803): move the end of the
preceding document.  `timeline.remove` removes that very event object; `erase` removes the first
equal one, which is the same because no event occurs twice (`Core.nodup`). -/
def trimPrev (tl : List Event) (bb ea : Option Event) (b : Int) : List Event :=
  match bb with
  | none => tl
  | some p =>
    match ea with
    | some e => insertEv { e with time := b } (tl.erase e)
    | none => insertEv ⟨.fin, p.doc, b⟩ tl

/-- `this_ends.when` after line 783. -/
def thisEnd (d : Doc) (tr : Option Event) : Option Int :=
  match tr with
  | some t => some t.time
  | none => d.cend

/-- `_insert_document` (ebutt3.py:813-828) on the timeline. -/
def insertOnTimeline (tl : List Event) (d : Doc) (e : Option Int) : List Event :=
  match e with
  | some t => insertEv ⟨.fin, d, t⟩ (insertEv (beginEvent d) tl)
  | none => insertEv (beginEvent d) tl

/-- `_insert_or_discard` (ebutt3.py:717-811). -/
def insertOrDiscard (docs : List Doc) (tl : List Event) (d : Doc) : InsRes :=
  match scanBack d.num none ((tl.filter (fun x => x.time ≤ d.cbegin)).reverse) with
  | .discarded x => .discarded x
  | .inconsistent => .valueError
  | .ok bb =>
    match scanFwd d bb none (tl.filter (fun x => d.cbegin ≤ x.time)) with
    | .inconsistent => .valueError
    | .overridden => .overridden
    | .typeError => .typeError
    | .ok ea tr =>
      .ok (insertDoc d docs) (insertOnTimeline (trimPrev tl bb ea d.cbegin) d (thisEnd d tr))

/-- The scan of `_override_sequence` (ebutt3.py:855-862) together with the removal of the
collected events (870-871): which events stay, and which documents are collected.  `disc` are
the keys of `discarded_timing_events` so far. -/
def overrideScan (b : Int) (n : Nat) (disc : List Doc) : List Event → List Event × List Doc
  | [] => ([], disc)
  | it :: rest =>
    if b ≤ it.time ∧ it.doc.num < n ∧ ¬(it.kind = .fin ∧ it.doc ∉ disc) then
      overrideScan b n (if it.doc ∈ disc then disc else disc ++ [it.doc]) rest
    else
      let r := overrideScan b n disc rest
      (it :: r.1, r.2)

/-- `_override_sequence` (ebutt3.py:841-871).  `none`: `discard_document` raised `ValueError` or
`_documents.remove` raised `KeyError` (shown unreachable). -/
def overrideSequence (s : State) (d : Doc) : Option State :=
  let r := overrideScan d.cbegin d.num [] s.timeline
  if r.2.any (fun x => decide (d.cbegin > x.cbegin) || !(s.docs.contains x)) then none
  else some { s with
    timeline := r.1
    docs := s.docs.filter (fun x => !(r.2.contains x))
    gone := r.2.map (fun x => (x, d.cbegin)) ++ s.gone }

/-- First entry for the document in the discard records: the `_resolved_end_time` attribute. -/
def goneEnd (s : State) (d : Doc) : Option Int :=
  (s.gone.find? (fun p => p.1 == d)).map (·.2)

/-- `locate_element_begin` (ebutt3.py:116-120). -/
def locateBegin (tl : List Event) (d : Doc) : Option Event :=
  (tl.filter (fun x => d.cbegin ≤ x.time)).find?
    (fun x => x.doc.num == d.num && x.kind == .bgn)

/-- `locate_element_end` (ebutt3.py:122-126). -/
def locateEnd (tl : List Event) (d : Doc) : Option Event :=
  (tl.filter (fun x => d.cbegin ≤ x.time)).find?
    (fun x => x.doc.num == d.num && x.kind == .fin)

/-- `EBUTT3DocumentSequence.resolved_begin_time` (ebutt3.py:922-933).  `none`: it raises
`LookupError`/`KeyError`. -/
def seqResolvedBegin (s : State) (d : Doc) : Option Int :=
  if s.docs.contains d then (locateBegin s.timeline d).map (·.time) else none

/-- `EBUTT3Document.resolved_begin_time` (ebutt3.py:404-409). -/
def resolvedBegin (s : State) (d : Doc) : Option Int :=
  match goneEnd s d with
  | some _ => some d.cbegin
  | none => seqResolvedBegin s d

/-- `EBUTT3DocumentSequence.resolved_end_time` (ebutt3.py:935-951).  Outer `none`: it raises
`LookupError`; `some none`: it returns `None`.  Line 951 is `item and item.when or None`: an end
event at time zero is falsy and reported as `None`. -/
def seqResolvedEnd (s : State) (d : Doc) : Option (Option Int) :=
  if s.docs.contains d then
    match locateEnd s.timeline d with
    | some e => if e.time = 0 then some none else some (some e.time)
    | none => if d.cend.isSome then none else some none
  else none

/-- `EBUTT3Document.resolved_end_time` (ebutt3.py:432-437). -/
def resolvedEnd (s : State) (d : Doc) : Option (Option Int) :=
  match goneEnd s d with
  | some t => some (some t)
  | none => seqResolvedEnd s d

/-- `EBUTT3Document.discarded` (ebutt3.py:443-445).  `none`: it raises — a lookup error, or the
`TypeError` of `timedelta >= None` for a document without resolved end. -/
def isDiscarded (s : State) (d : Doc) : Option Bool :=
  match resolvedBegin s d, resolvedEnd s d with
  | some b, some (some e) => some (decide (b ≥ e))
  | _, _ => none

/-- `add_document`'s handler for `DocumentDiscardedError` (ebutt3.py:910-914). -/
def discardNew (s : State) (d by' : Doc) : State × Outcome :=
  match resolvedBegin s by' with
  | none => (s, .lookupError)
  | some t =>
    if t > d.cbegin then (s, .valueError)
    else ({ s with gone := (d, t) :: s.gone, lastNum := max s.lastNum d.num }, .discarded)

/-- The state after a successful insertion, lines 916-917 included. -/
def inserted (s : State) (d : Doc) (docs : List Doc) (tl : List Event) : State × Outcome :=
  ({ s with docs := docs, timeline := tl, lastNum := max s.lastNum d.num }, .inserted)

/-- The retry after an override (ebutt3.py:905-909). -/
def retry (s : State) (d : Doc) : State × Outcome :=
  match overrideSequence s d with
  | none => (s, .valueError)
  | some s' =>
    match insertOrDiscard s'.docs s'.timeline d with
    | .ok docs tl => inserted s' d docs tl
    | .discarded _ => (s', .discardEscapes)
    | .overridden => (s', .overrideEscapes)
    | .valueError => (s', .valueError)
    | .typeError => (s', .typeError)

/-- `add_document` (ebutt3.py:898-917). -/
def addDocument (s : State) (d : Doc) : State × Outcome :=
  match checkCompat s d with
  | .error o => (s, o)
  | .ok g =>
    let s := { s with agid := g }
    match insertOrDiscard s.docs s.timeline d with
    | .ok docs tl => inserted s d docs tl
    | .discarded x => discardNew s d x
    | .overridden => retry s d
    | .valueError => (s, .valueError)
    | .typeError => (s, .typeError)

/-- A series of `add_document` calls, with what each of them ended with. -/
def run (s : State) : List Doc → State × List Outcome
  | [] => (s, [])
  | d :: ds =>
    let r := addDocument s d
    let q := run r.1 ds
    (q.1, r.2 :: q.2)

/-- `lookup_range_on_timeline` (ebutt3.py:128-150) on the sequence.  The loop runs over
`irange(maximum=end)`; `in` and `remove` on the result list compare by sequence number. -/
def lookupLoop (lo hi : Option Int) (acc : List Doc) : List Event → List Doc
  | [] => acc
  | it :: rest =>
    match it.kind with
    | .bgn => if some it.time ≠ hi then lookupLoop lo hi (acc ++ [it.doc]) rest
              else lookupLoop lo hi acc rest
    | .fin =>
      match lo with
      | some b =>
        if it.time ≤ b then
          lookupLoop lo hi (acc.eraseP (fun x => x.num == it.doc.num)) rest
        else lookupLoop lo hi acc rest
      | none => lookupLoop lo hi acc rest

/-- `irange(maximum=end)` with an optional maximum. -/
def upTo (hi : Option Int) (tl : List Event) : List Event :=
  match hi with
  | none => tl
  | some h => tl.filter (fun x => x.time ≤ h)

/-- `lookup_range_on_timeline` (ebutt3.py:128-150). -/
def lookupRange (tl : List Event) (lo hi : Option Int) : List Doc :=
  lookupLoop lo hi [] (upTo hi tl)

/-- `discard_before` (ebutt3.py:873-896).  `none`: `discard_document` raised `ValueError`
(negative begin) or `_documents.remove` raised `KeyError`.  Every collected event is one of those
selected by `irange`, so removing them is a filter. -/
def discardBefore (s : State) (d : Doc) : Option State :=
  let old := s.timeline.filter (fun x => decide (x.time ≤ d.cbegin) && x.doc.num != d.num)
  let items := (old.map (·.doc)).eraseDups
  if items.any (fun x => decide ((0 : Int) > x.cbegin) || !(s.docs.contains x)) then none
  else some { s with
    timeline := s.timeline.filter (fun x => !(decide (x.time ≤ d.cbegin) && x.doc.num != d.num))
    docs := s.docs.filter (fun x => !(items.contains x))
    gone := items.map (fun x => (x, (0 : Int))) ++ s.gone }

/-- The loop of `extract_segment` (ebutt3.py:974-993): the window each affected document is
asked for.  `none`: `doc.resolved_end_time` raised. -/
def windows (s : State) (lo hi : Option Int) : List Doc → Option (List (Doc × Option Int × Option Int))
  | [] => some []
  | d :: ds =>
    match resolvedEnd s d with
    | none => none
    | some e =>
      let ending : Option Int :=
        match hi with
        | none => e
        | some h =>
          match e with
          | none => some h
          | some x => if h < x then some h else some x
      match windows s ending hi ds with
      | none => none
      | some r => some ((d, lo, ending) :: r)

/-- The windows of `extract_segment(begin, end)` (ebutt3.py:956-993). -/
def extractWindows (s : State) (lo hi : Option Int) :
    Option (List (Doc × Option Int × Option Int)) :=
  windows s lo hi (lookupRange s.timeline lo hi)

/-- `new_document` (ebutt3.py:713-715): the new last number, which is the number of the
document returned. -/
def newDocument (s : State) : State × Nat :=
  ({ s with lastNum := s.lastNum + 1 }, s.lastNum + 1)

end Verif.Seq
