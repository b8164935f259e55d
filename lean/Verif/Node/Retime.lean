import Verif.Node.Simple

/-
Model of the retiming delay node (`/repo/ebu_tt_live/node/delay.py:17-79, 101-228`).
-/
namespace Verif.Node

open Verif.Doc (Node Att TV)
open Verif.Time (TimeBase Reader)

/-- `LimitedClockTimingType(timedelta)` or `FullClockTimingType(timedelta)` by time base, with the time read
back from the text; `none` if the format refuses the time. -/
def stamp (base : TimeBase) (rd : Reader) (t : Int) : Option TV :=
  match base with
  | .clock => limitedClock rd t
  | _ => (Time.readFull rd (Time.writeFull t)).map (fun u => ⟨Time.writeFull t, u⟩)

/-- One attribute moved by the delay (delay.py:110-117, 119-126, 147-155): the delay itself is written and
read back, the sum is written.  With the time base smpte nothing is done. -/
def shiftTV (base : TimeBase) (rd : Reader) (d : Int) (v : TV) : Option TV :=
  match base with
  | .smpte => some v
  | _ => (stamp base rd d).bind (fun d' => stamp base rd (v.delta + d'.delta))

/-- An attribute that may be absent. -/
def shiftOpt (base : TimeBase) (rd : Reader) (d : Int) : Option TV → Option (Option TV)
  | none => some none
  | some v => (shiftTV base rd d v).map some

mutual
/-- `update_children_timing` for one child (delay.py:101-129): its end is moved, and its begin if it has one;
otherwise its children are dealt with.  `none` when writing a time raises. -/
def retime (base : TimeBase) (rd : Reader) (d : Int) : Node Att → Option (Node Att)
  | .text s => some (.text s)
  | .br => some .br
  | .elem a kids =>
    (shiftOpt base rd d a.fin).bind (fun fin =>
      match a.beg with
      | some b => (shiftTV base rd d b).map (fun b' => .elem { a with beg := some b', fin := fin } kids)
      | none => (retimeL base rd d kids).map (fun ks => .elem { a with fin := fin } ks))
/-- The children in order. -/
def retimeL (base : TimeBase) (rd : Reader) (d : Int) : List (Node Att) → Option (List (Node Att))
  | [] => some []
  | k :: ks => (retime base rd d k).bind (fun k' => (retimeL base rd d ks).map (fun ks' => k' :: ks'))
end

/-- `update_body_timing` (delay.py:132-155); `none` when the assertion fails or writing a time raises. -/
def retimeBody (base : TimeBase) (rd : Reader) (d : Int) : Node Att → Option (Node Att)
  | .elem a kids =>
    match a.beg with
    | some _ => none
    | none =>
      match base with
      | .smpte => some (.elem a kids)
      | _ => (stamp base rd d).bind (fun d' => (stamp base rd d'.delta).bind (fun b =>
          (shiftOpt base rd d a.fin).map (fun fin => .elem { a with beg := some b, fin := fin } kids)))
  | n => some n

/-- `p_type.is_timed_leaf`, `span_type.is_timed_leaf` (bindings/__init__.py:733, 800), `False` for the others
(validation/timing.py:288). -/
def timedLeaf (a : Att) (kids : List (Node Att)) : Bool := Doc.Leaf Att.kind a kids

mutual
/-- `UntimedPathFinder` (delay.py:177-228): is there a leaf without a begin on itself or around it?  The stack
of timed elements is empty exactly if no element around has a begin. -/
def untimedLeaf : Node Att → Bool
  | .elem a kids => a.beg.isNone && (timedLeaf a kids || untimedLeafL kids)
  | _ => false
def untimedLeafL : List (Node Att) → Bool
  | [] => false
  | k :: ks => untimedLeaf k || untimedLeafL ks
end

/-- The body of a document retimed by `d` (delay.py:63-67). -/
def retimeDoc (base : TimeBase) (rd : Reader) (d : Int) (root : Node Att) : Option (Node Att) :=
  if untimedLeaf root then retimeBody base rd d root else retime base rd d root

/-! ### The node -/

/-- A document at the node: identifier, number, time base and body. -/
structure TDoc where
  sid : String
  num : Nat
  base : TimeBase
  body : Node Att

/-- What is delivered: a document or something else (a message). -/
inductive TIn where
  | doc (d : TDoc)
  | msg (m : String)

/-- What is emitted. -/
inductive TOut where
  | doc (d : TDoc)
  | msg (m : String)

/-- `_seen_docs` and `_first_input_document_sequence`. -/
structure TState where
  seen : Seen := []
  first : Option String := none

/-- How a delivery ends. -/
inductive TRes where
  | emitted (o : TOut)
  | duplicate
  /-- `UnexpectedSequenceIdentifierError` -/
  | otherSequence
  /-- writing a time raised -/
  | failed

/-- `RetimingDelayNode.process_document` (delay.py:33-79) with output identifier `out`.  The metadata that is
added is left out. -/
def retimeNode (rd : Reader) (out : String) (delay : Int) (s : TState) : TIn → TState × TRes
  | .msg m => (s, .emitted (.msg m))
  | .doc d =>
    if d.sid = out then (s, .otherSequence)
    else
      let r := checkSeen s.seen d.sid d.num
      if r.1 = true then
        if s.first.getD d.sid ≠ d.sid then ({ s with seen := r.2 }, .otherSequence)
        else
          match retimeDoc d.base rd delay d.body with
          | none => ({ seen := r.2, first := some d.sid }, .failed)
          | some body => ({ seen := r.2, first := some d.sid }, .emitted (.doc { d with sid := out, body := body }))
      else ({ s with seen := r.2 }, .duplicate)

/-- A series of deliveries. -/
def runT (rd : Reader) (out : String) (delay : Int) (s : TState) : List TIn → TState × List TRes
  | [] => (s, [])
  | i :: is =>
    let r := retimeNode rd out delay s i
    let rs := runT rd out delay r.1 is
    (rs.1, r.2 :: rs.2)

end Verif.Node
