import Verif.Seq.Model
import Verif.Node.Seen

/-
Model of the handover node (`/repo/ebu_tt_live/node/handover.py`).
-/
namespace Verif.Node

/-- A document as the nodes see it: what the sequence model looks at (`Verif.Seq.Doc`), the handover
attributes of its root (documents/ebutt3.py:341-354) and its content, which no node of this file reads. -/
structure NDoc (α : Type) extends Seq.Doc where
  /-- `authors_group_control_token`, an `xs:positiveInteger` -/
  token : Option Nat
  /-- `authors_group_selected_sequence_identifier` -/
  selected : Option String
  content : α
deriving DecidableEq, Repr

/-- A live message (documents/ebutt3.py:176-212). -/
structure Msg where
  sid : String
  payload : String
deriving DecidableEq, Repr

/-- What is delivered to a node: a document or a message (`is_document`, node/base.py:83-87). -/
inductive In (α : Type) where
  | doc (d : NDoc α)
  | msg (m : Msg)
deriving DecidableEq, Repr

/-- `get_clock_from_document` (clocks/__init__.py:9-30) with the sequence identifier of
`EBUTT3DocumentSequence.create_from_document` (documents/ebutt3.py:625-639).  `none`: no clock object, for
example for the clock mode `gps`. -/
def clockOf (d : Seq.Doc) : Option Seq.Cfg :=
  if d.timeBase = "clock" then
    if d.clockMode = some "local" then some ⟨d.seqId, "clock", some "local"⟩
    else if d.clockMode = some "utc" then some ⟨d.seqId, "clock", some "utc"⟩
    else none
  else if d.timeBase = "media" then some ⟨d.seqId, "media", none⟩
  else if d.timeBase = "smpte" then some ⟨d.seqId, "smpte", none⟩
  else none

/-- `EBUTT3DocumentSequence.create_from_document(document)` (documents/ebutt3.py:625-639); `none` stands for
a sequence without a clock. -/
def newSeq (d : Seq.Doc) : Option Seq.State := (clockOf d).map (fun c => Seq.State.init c d.agid)

/-- `_known_sequences` (handover.py:20, 33). -/
abbrev Known := List (String × Option Seq.State)

/-- `self._known_sequences.get(sid)`. -/
def Known.get : Known → String → Option (Option Seq.State)
  | [], _ => none
  | (k, v) :: r, sid => if k = sid then some v else Known.get r sid

/-- Store the sequence under its identifier. -/
def Known.put : Known → String → Option Seq.State → Known
  | [], sid, q => [(sid, q)]
  | (k, v) :: r, sid, q => if k = sid then (k, q) :: r else (k, v) :: Known.put r sid q

/-- Why a delivery raises. -/
inductive HErr where
  /-- the exception of `is_compatible` -/
  | refused (o : Seq.Outcome)
  /-- the sequence has no clock: `AttributeError` -/
  | attributeError
deriving DecidableEq, Repr

/-- `HandoverNode` (handover.py:15-33). -/
structure HState where
  seen : Seen := []
  known : Known := []
  token : Option Nat := none
  selected : Option String := none
  last : Nat := 0

/-- Configuration of the node (handover.py:29-30). -/
structure HCfg where
  agid : Option String
  outId : String

/-- `.is_compatible(document)` on the stored sequence (handover.py:66-69): the sequence afterwards, which may
have picked up the authors group. -/
def compat (q : Option Seq.State) (d : Seq.Doc) : Except HErr (Option Seq.State) :=
  match q with
  | none => .error .attributeError
  | some st =>
    match Seq.checkCompat st d with
    | .error o => .error (.refused o)
    | .ok g => .ok (some { st with agid := g })

/-- Whether the document is emitted (handover.py:70-78), given that it passed the checks of lines 70-72: a
higher token switches, the selected sequence goes on. -/
def decideEmit (s : HState) (sid : String) (t : Nat) : Bool :=
  match s.token with
  | none => true
  | some c => decide (c < t) || decide (s.selected = some sid)

/-- `process_document` (handover.py:35-97): the state afterwards and what is emitted, if anything. -/
def handover {α : Type} (cfg : HCfg) (s : HState) (i : In α) : HState × Except HErr (Option (In α)) :=
  match i with
  | .msg m => (s, .ok (some (.msg { m with sid := cfg.outId })))
  | .doc d =>
    let q := (s.known.get d.seqId).getD (newSeq d.toDoc)
    match compat q d.toDoc with
    | .error e => ({ s with known := s.known.put d.seqId q }, .error e)
    | .ok q' =>
      let r := checkSeen s.seen d.seqId d.num
      let s1 := { s with known := s.known.put d.seqId q', seen := r.2 }
      match d.token with
      | none => (s1, .ok none)
      | some t =>
        if r.1 = true ∧ d.agid = cfg.agid ∧ decideEmit s d.seqId t = true then
          ({ s1 with token := some t, selected := some d.seqId, last := s.last + 1 },
            .ok (some (.doc { d with selected := some d.seqId, seqId := cfg.outId, num := s.last + 1 })))
        else (s1, .ok none)

/-- A series of deliveries to a node. -/
def runH {α : Type} (cfg : HCfg) (s : HState) : List (In α) → HState × List (Except HErr (Option (In α)))
  | [] => (s, [])
  | i :: is =>
    let r := handover cfg s i
    let rs := runH cfg r.1 is
    (rs.1, r.2 :: rs.2)

/-- Everything emitted, in order. -/
def emitted {α : Type} : List (Except HErr (Option (In α))) → List (In α)
  | [] => []
  | .ok (some o) :: rs => o :: emitted rs
  | .ok none :: rs => emitted rs
  | .error _ :: rs => emitted rs

end Verif.Node
