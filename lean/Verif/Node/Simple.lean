import Verif.Node.Handover
import Verif.Doc.Reseg

/-
Models of the smaller nodes: distributor (`/repo/ebu_tt_live/node/distributing.py`), consumer and resequencer
(`node/consumer.py`), buffer delay (`node/delay.py:82-98` with `carriage/websocket.py:22-24` and
`twisted/websocket.py:158-164`), producer (`node/producer.py`) and the media clock (`clocks/media.py`).
-/
namespace Verif.Node

/-! ### Distributor -/

/-- What is delivered to the distributor: a document, perhaps with the XML it was read from, and the XML
`get_xml()` would make of it; or a message. -/
inductive DIn where
  | doc (sid : String) (num : Nat) (raw : Option String) (own : String)
  | msg (sid : String) (own : String)
deriving DecidableEq, Repr

/-- What the distributor emits: the data and the keyword arguments that identify it.  The other keyword
arguments (time base, availability time, clock mode) are copied from the document and left out. -/
structure DOut where
  data : String
  sid : String
  num : Option Nat
deriving DecidableEq, Repr

/-- `DistributingNode.process_document` (distributing.py:23-57). -/
def distribute (s : Seen) : DIn → Seen × Option DOut
  | .doc sid num raw own =>
    let r := checkSeen s sid num
    (r.2, if r.1 = true then some ⟨raw.getD own, sid, some num⟩ else none)
  | .msg sid own => (s, some ⟨own, sid, none⟩)

/-- A series of deliveries: what is emitted for each. -/
def runD (s : Seen) : List DIn → Seen × List (Option DOut)
  | [] => (s, [])
  | i :: is =>
    let r := distribute s i
    let rs := runD r.1 is
    (rs.1, r.2 :: rs.2)

/-! ### Consumer -/

/-- A document on its way to a consumer: its availability time if it has one, and the computed times
`validate()` gives it under an availability time (consumer.py:39-40, documents/ebutt3.py:389-394). -/
structure CDoc where
  doc : Seq.Doc
  avail : Option Int
  times : Int → Int × Option Int

/-- The document with the computed times for availability time `a`. -/
def CDoc.at (d : CDoc) (a : Int) : Seq.Doc := { d.doc with cbegin := (d.times a).1, cend := (d.times a).2 }

/-- The document as the sequence gets it when it is delivered at `now` (consumer.py:39-40). -/
def CDoc.received (d : CDoc) (now : Int) : Seq.Doc := d.at (d.avail.getD now)

/-- `SimpleConsumer` (consumer.py:14-27): `_first_input_document_sequence` and `_sequence`, which may be a
sequence without a clock. -/
structure CState where
  first : Option String := none
  seq : Option (Option Seq.State) := none

/-- How a delivery to the consumer ends. -/
inductive CRes where
  /-- not a document: ignored -/
  | ignored
  /-- `UnexpectedSequenceIdentifierError` (node/base.py:89-97) -/
  | otherSequence
  /-- the sequence has no clock: `AttributeError` -/
  | attributeError
  /-- what `add_document` ended with; a collision is caught and logged (consumer.py:48-55) -/
  | added (o : Seq.Outcome)
deriving DecidableEq, Repr

/-- The delivery raises out of `process_document`. -/
def CRes.raises : CRes → Bool
  | .ignored => false
  | .otherSequence => true
  | .attributeError => true
  | .added .inserted => false
  | .added .discarded => false
  | .added .collision => false
  | .added _ => true

/-- `SimpleConsumer.process_document` (consumer.py:29-60) with `limit_sequence_to_one` (node/base.py:89-97)
and `create_sequence_from_document`.  `none` stands for a message. -/
def consume (now : Int) (s : CState) : Option CDoc → CState × CRes
  | none => (s, .ignored)
  | some d =>
    if s.first.getD d.doc.seqId ≠ d.doc.seqId then (s, .otherSequence)
    else
      match s.seq.getD (newSeq d.doc) with
      | none => ({ first := some d.doc.seqId, seq := some none }, .attributeError)
      | some st =>
        let r := Seq.addDocument st (d.received now)
        ({ first := some d.doc.seqId, seq := some (some r.1) }, .added r.2)

/-- A series of deliveries with their times. -/
def runC (s : CState) : List (Int × Option CDoc) → CState × List CRes
  | [] => (s, [])
  | i :: is =>
    let r := consume i.1 s i.2
    let rs := runC r.1 is
    (rs.1, r.2 :: rs.2)

/-! ### Resequencer -/

/-- `ReSequencer` (consumer.py:71-106). -/
structure RState where
  cons : CState := {}
  lastEnd : Int
  counter : Nat := 1

/-- What happens to a resequencer: a delivery, or the timer calling `convert_next_segment`. -/
inductive REv where
  | deliver (now : Int) (d : Option CDoc)
  | tick

/-- An emitted segment: the number and window it was extracted with, and the document. -/
structure RSeg (β : Type) where
  num : Nat
  lo : Int
  hi : Int
  doc : β

/-- One event (consumer.py:120-151).  `ex` is `extract_segment` on the sequence: the sequence
afterwards and the segment, `none` if it raises; a sequence without a clock always raises. -/
def reseq {β : Type} (ex : Seq.State → Int → Int → Option β × Seq.State) (len : Int) (s : RState) :
    REv → RState × Option (RSeg β)
  | .deliver now d => ({ s with cons := (consume now s.cons d).1 }, none)
  | .tick =>
    match s.cons.seq with
    | none => (s, none)
    | some none => (s, none)
    | some (some q) =>
      let r := ex q s.lastEnd (s.lastEnd + len)
      let cons := { s.cons with seq := some (some r.2) }
      match r.1 with
      | none => ({ s with cons := cons }, none)
      | some b => ({ cons := cons, lastEnd := s.lastEnd + len, counter := s.counter + 1 },
                    some ⟨s.counter, s.lastEnd, s.lastEnd + len, b⟩)

/-- A series of events: the emitted segments, in order. -/
def runR {β : Type} (ex : Seq.State → Int → Int → Option β × Seq.State) (len : Int) (s : RState) :
    List REv → RState × List (RSeg β)
  | [] => (s, [])
  | e :: es =>
    let r := reseq ex len s e
    let rs := runR ex len r.1 es
    (rs.1, r.2.toList ++ rs.2)

/-- `extract_segment(begin, end, discard=...)` (documents/ebutt3.py:956-1012) with the discarding at its end.
Simplification: if `discard_before` raises, the sequence is taken to be unchanged. -/
def extract (src : Seq.Doc → Doc.Source) (discard : Bool) (q : Seq.State) (lo hi : Int) :
    Option (Option Doc.SDoc) × Seq.State :=
  match Doc.extractSegment q src (some lo) (some hi) with
  | none => (none, q)
  | some out =>
    if discard then
      match (Seq.lookupRange q.timeline (some lo) (some hi)).getLast? with
      | none => (some out, q)
      | some d =>
        match Seq.discardBefore q d with
        | none => (none, q)
        | some q' => (some out, q')
    else (some out, q)

/-! ### Buffer delay -/

/-- The reactor with the pending calls of a buffer delay node, `out` being what was written so far, latest
last, with the time of writing. -/
structure BState (α : Type) where
  now : Int
  pending : List (Int × α)
  arrived : List (Int × α)
  out : List (Int × α)

/-- What can happen: a document arrives, `emit_data(data, delay=fixed_delay)` makes
`reactor.callLater(delay, _do_write, ...)` (delay.py:96-98, carriage/websocket.py:22-24,
twisted/websocket.py:158-161); or the reactor makes a call that is due.  Of the reactor it is only assumed
that time does not run backwards, that it makes no call before its time, and that it makes a pending call
only if no other is due earlier; of calls due at the same time any may be made first. -/
inductive BStep {α : Type} (delay : Int) : BState α → BState α → Prop
  | arrive {s : BState α} (t : Int) (x : α) : s.now ≤ t →
      BStep delay s { now := t, pending := s.pending ++ [(t + delay, x)], arrived := s.arrived ++ [(t, x)], out := s.out }
  | fire {s : BState α} (t : Int) (p q : List (Int × α)) (due : Int) (x : α) : s.now ≤ t →
      s.pending = p ++ (due, x) :: q → due ≤ t → (∀ c ∈ p ++ q, due ≤ c.1) →
      BStep delay s { now := t, pending := p ++ q, arrived := s.arrived, out := s.out ++ [(t, x)] }

/-- Everything that can happen from the start of the node on. -/
inductive BRun {α : Type} (delay : Int) : BState α → Prop
  | start (t : Int) : BRun delay ⟨t, [], [], []⟩
  | step {s s' : BState α} : BRun delay s → BStep delay s s' → BRun delay s'

/-! ### Producer -/

/-- What `SimpleProducer` emits: the document's number and its body (producer.py:51-113).  The fixed style
sheet and layout are left out. -/
structure Produced where
  num : Nat
  body : Doc.Node Doc.Att

/-- `_interleave_line_breaks` (producer.py:36-49): a span per line with line breaks in between; `none` for no
lines, where `end_list.pop()` raises. -/
def interleave : List (List Char) → Option (List (Doc.Node Doc.Att))
  | [] => none
  | [l] => some [.elem { kind := .span, style := ["defaultStyle1".toList] } [.text l]]
  | l :: ls => (interleave ls).map (fun r =>
      .elem { kind := .span, style := ["defaultStyle1".toList] } [.text l] :: .br :: r)

/-- `SimpleProducer` (producer.py:14-25): the sequence's last number and the remaining input blocks, `none` if
it was made without input (it then sends the time). -/
structure PState where
  last : Nat
  blocks : Option (List (List (List Char)))

/-- `LimitedClockTimingType(timedelta)`: the text and the time read back from it
(bindings/_ebuttdt.py:381-403, 366-377); `none` for the overflow error. -/
def limitedClock (rd : Time.Reader) (t : Int) : Option Doc.TV :=
  (Time.writeLimited t).bind (fun text => (Time.readLimited rd text).map (fun d => ⟨text, d⟩))

/-- The lines of the next document and the remaining input (producer.py:65-71): `none` for `EndOfData`.
Without input the time is sent (an overflow error if it has 100 hours or more). -/
def nextLines (s : PState) (time : Option (List Char)) : Option (List (List Char) × Option (List (List (List Char)))) :=
  match s.blocks with
  | none => time.map (fun t => ([t], none))
  | some [] => none
  | some (b :: bs) => some (b, some bs)

/-- `process_document` at reference time `now` (producer.py:61-113).  `none`: `EndOfData`, the `IndexError` of
an empty block or the overflow error of a time of 100 hours or more.  The sequence has given out the next
number already when the last two are raised. -/
def produce (rd : Time.Reader) (now : Int) (s : PState) : PState × Option Produced :=
  let at' := now + 1000000
  match nextLines s (Time.writeLimited at') with
  | none => (s, none)
  | some (lines, blocks) =>
    match interleave lines, limitedClock rd at', limitedClock rd 1000000 with
    | some content, some b, some d =>
      (⟨s.last + 1, blocks⟩, some
        { num := s.last + 1
          body := .elem { kind := .body, beg := some b, dur := some d }
            [.elem { kind := .div, region := some "bottomRegion".toList }
              [.elem { kind := .p, id := some "ID001".toList } content]] })
    | _, _, _ => (⟨s.last + 1, blocks⟩, none)

/-- A series of requests. -/
def runP (rd : Time.Reader) (s : PState) : List Int → PState × List (Option Produced)
  | [] => (s, [])
  | t :: ts =>
    let r := produce rd t s
    let rs := runP rd r.1 ts
    (rs.1, r.2 :: rs.2)

/-! ### Media clock -/

/-- `ReferenceTime` (clocks/media.py:8). -/
structure Ref where
  loc : Int
  remote : Int

/-- `MediaClock.get_media_time` (clocks/media.py:27-28). -/
def Ref.mediaTime (r : Ref) (t : Int) : Int := r.remote + (t - r.loc)

/-- The clock of an encoder: `adjust_time(timedelta(), media_time_zero)` (node/encoder.py:27-28,
clocks/media.py:33-44). -/
def encoderClock (zero : Int) : Ref := { loc := zero, remote := 0 }

end Verif.Node
