import Verif.Node.Retime

/-
The retiming delay node with the record it leaves in the metadata of the document
(`/repo/ebu_tt_live/node/delay.py:33-79`), and nodes of this kind one behind the other.
-/
namespace Verif.Node.Record

open Verif.Time (Reader)

/-- An `appliedProcessing` element (delay.py:54-59, xsd/ebutt_metadata.xsd). `process` is the text "retimed by … s"; here it is
the delay that the text gives. -/
structure Entry where
  delay : Int
  generatedBy : String
  sourceId : String
  applied : Int
deriving DecidableEq, Repr

/-- `documentMetadata`: the record of applied processing and, as text, all other elements (xsd/ebutt_metadata.xsd). -/
structure DocMeta where
  entries : List Entry := []
  others : List String := []
deriving DecidableEq, Repr

/-- `headMetadata_type`: `documentMetadata` and, as text, all other elements (xsd/ebutt_metadata.xsd:566-582). -/
structure HeadMeta where
  docMeta : Option DocMeta
  others : List String := []
deriving DecidableEq, Repr

/-- A document with the metadata of its head, if any. -/
structure RDoc where
  doc : TDoc
  info : Option HeadMeta

/-- What is delivered or emitted. -/
inductive RIn where
  | doc (d : RDoc)
  | msg (m : String)

/-- The settings of a node (delay.py:23-31). -/
structure RNode where
  id : String
  out : String
  delay : Int
deriving DecidableEq, Repr

/-- The metadata after delay.py:46-61: what is missing is made, and an entry is appended. `now` is `datetime.now()`. -/
def noted (c : RNode) (now : Int) (info : Option HeadMeta) : HeadMeta :=
  let h := info.getD { docMeta := some {} }
  let m := h.docMeta.getD {}
  { h with docMeta := some { m with entries := m.entries ++
      [{ delay := c.delay, generatedBy := "retiming_delay_node_v1.0", sourceId := c.id, applied := now }] } }

/-- How a delivery ends, and, unless the document is emitted, what has become of it: documents are changed in place. -/
inductive RRes where
  | emitted (o : RIn)
  | duplicate (left : RDoc)
  /-- `UnexpectedSequenceIdentifierError` -/
  | otherSequence (left : RDoc)
  /-- Writing a time raised. Identifier and metadata are changed by then (delay.py:44, 61); how much of the body has been retimed
  is left out. -/
  | failed (sid : String) (info : Option HeadMeta)

/-- `RetimingDelayNode.process_document` (delay.py:33-79). That the document is valid afterwards (delay.py:68) is not a matter of
the metadata and is left to C37. -/
def recordNode (rd : Reader) (c : RNode) (s : TState) (now : Int) : RIn → TState × RRes
  | .msg m => (s, .emitted (.msg m))
  | .doc d =>
    if d.doc.sid = c.out then (s, .otherSequence d)
    else
      let r := checkSeen s.seen d.doc.sid d.doc.num
      if r.1 = true then
        if s.first.getD d.doc.sid ≠ d.doc.sid then ({ s with seen := r.2 }, .otherSequence d)
        else
          match retimeDoc d.doc.base rd c.delay d.doc.body with
          | none => ({ seen := r.2, first := some d.doc.sid }, .failed c.out (some (noted c now d.info)))
          | some body =>
            ({ seen := r.2, first := some d.doc.sid },
              .emitted (.doc { doc := { d.doc with sid := c.out, body := body }, info := some (noted c now d.info) }))
      else ({ s with seen := r.2 }, .duplicate d)

/-- Nodes one behind the other, each with its state: what one emits is delivered to the next, and what the last emits comes out
(carriage/direct.py). `now` is what the clock of each node says. With no nodes everything comes out as it is. -/
def passOn (rd : Reader) (now : RNode → Int) : List (RNode × TState) → RIn → List (RNode × TState) × Option RIn
  | [], i => ([], some i)
  | (c, s) :: cs, i =>
    match recordNode rd c s (now c) i with
    | (s', .emitted o) =>
      let r := passOn rd now cs o
      ((c, s') :: r.1, r.2)
    | (s', _) => ((c, s') :: cs, none)

/-- A series of deliveries to the first node: what comes out for each. -/
def passAll (rd : Reader) : List (RNode × TState) → List (RIn × (RNode → Int)) → List (Option RIn)
  | _, [] => []
  | cs, e :: es =>
    let r := passOn rd e.2 cs e.1
    r.2 :: passAll rd r.1 es

/-- Nodes that have not seen anything. -/
def fresh (cs : List RNode) : List (RNode × TState) := cs.map (fun c => (c, {}))

end Verif.Node.Record
