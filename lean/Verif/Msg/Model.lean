import Verif.Xml.Model

/-!
# Live messages

Model of `EBUTTLiveMessage` and `EBUTTAuthorsGroupControlRequest` (`/repo/ebu_tt_live/documents/ebutt3.py:147-259`), of the way a
message becomes text and a message again (`bindings/_ebuttlm.py:14-39`, `xsd/ebutt_livemessage.xsd`,
`adapters/document_data.py:14-43, 68-91`), and of what the nodes do with it (`node/*.py`).

* Printing and parsing are those of `Verif.Xml`.  The work of PyXB is modelled for the schema of messages: the order and number of
  elements, white space between them, text where none is allowed, the required attribute.
* Names are compared as they are written, with the prefixes the toolkit (`bindings/_ebuttlm.py:8-11`) and the user input page use;
  an attribute on an element of the header counts as an error, even if it declares a namespace.
* What an `NCName` is, is a parameter.
-/
namespace Verif.Msg

open Verif.Xml (Text X)

/-- The payload of a message object: a text, or an element.  It is the value of the first item of the content of the `payload`
element (documents/ebutt3.py:254). -/
inductive Payload where
  | text (d : Text)
  | node (x : X)

/-- `EBUTTAuthorsGroupControlRequest` (documents/ebutt3.py:176-227).  `recipients` is `None` or a list. -/
structure Message where
  sid : Text
  sender : Option Text
  recipients : Option (List Text)
  payload : Payload
  avail : Option Int

/-- Exceptions. -/
inductive Err where
  /-- the parser or PyXB refuses the text -/
  | refused
  /-- `IndexError`: there is nothing in the payload (documents/ebutt3.py:254) -/
  | noPayload
  /-- `KeyError`: there is no class for this type of message (documents/ebutt3.py:163) -/
  | otherType
  /-- `UnexpectedSequenceIdentifierError` (adapters/document_data.py:35-39) -/
  | otherSequence
deriving DecidableEq, Repr

/-! ### Writing -/

def messageTag : Text := "ebuttlm:message".toList
def headerTag : Text := "ebuttlm:header".toList
def senderTag : Text := "ebuttlm:sender".toList
def recipientTag : Text := "ebuttlm:recipient".toList
def typeTag : Text := "ebuttlm:type".toList
def payloadTag : Text := "ebuttlm:payload".toList
def sidName : Text := "ebuttp:sequenceIdentifier".toList

/-- `message_type_id` (documents/ebutt3.py:217). -/
def requestType : Text := "authorsGroupControlRequest".toList

/-- The namespaces (bindings/_ebuttlm.py:8-11). -/
def nsAttrs : List (Text × Text) :=
  [("xmlns:ebuttlm".toList, "urn:ebu:tt:livemessage".toList), ("xmlns:ebuttp".toList, "urn:ebu:tt:parameters".toList)]

/-- An element with a text. -/
def leaf (t d : Text) : X := .elem t [] [.text d]

/-- The elements of the header in the order of the schema (documents/ebutt3.py:229-235, xsd/ebutt_livemessage.xsd:17-21): an empty
sender and an empty list of recipients are left out. -/
def headerKids (m : Message) : List X :=
  (match m.sender with
   | some s => if s = [] then [] else [leaf senderTag s]
   | none => []) ++
  (m.recipients.getD []).map (leaf recipientTag) ++ [leaf typeTag requestType]

/-- The content of the payload; that an element is put back as it is, is taken as given. -/
def payloadKids : Payload → List X
  | .text d => [.text d]
  | .node x => [x]

/-- `_create_binding` and `toDOM` (documents/ebutt3.py:228-243, bindings/_ebuttlm.py:25-30). -/
def tree (m : Message) : X :=
  .elem messageTag ((sidName, m.sid) :: nsAttrs)
    [.elem headerTag [] (headerKids m), .elem payloadTag [] (payloadKids m.payload)]

/-- `get_xml()` (documents/ebutt3.py:245-246, bindings/_ebuttlm.py:32-39).  An identifier must not be empty
(xsd/ebutt_parameters.xsd:22-26). -/
def write (m : Message) : Except Err Text :=
  if m.sid = [] then .error .refused else .ok (Xml.writeDoc (tree m))

/-! ### Reading -/

/-- The text of an element of a simple type; an element inside it is an error. -/
def simple : List X → Option Text
  | [] => some []
  | .text d :: ks => (simple ks).map (d ++ ·)
  | .elem _ _ _ :: _ => none

/-- White space at both ends, which does not count in an `NCName`. -/
def strip (d : Text) : Text := ((d.dropWhile Xml.blank).reverse.dropWhile Xml.blank).reverse

/-- The header of a message. -/
structure Header where
  sender : Option Text
  recipients : List Text
  type : Text

/-- The rest of the header: recipients, and last the type (xsd/ebutt_livemessage.xsd:19-20). -/
def readTail (ncName : Text → Bool) : List X → Option (List Text × Text)
  | .elem t as ks :: rest =>
    if as.isEmpty = false then none
    else if t = recipientTag then
      match simple ks, readTail ncName rest with
      | some r, some (rs, ty) => some (r :: rs, ty)
      | _, _ => none
    else if t = typeTag then
      match simple ks with
      | some ty => if rest.isEmpty = true ∧ ncName (strip ty) = true then some ([], strip ty) else none
      | none => none
    else none
  | _ => none

/-- The header (xsd/ebutt_livemessage.xsd:17-21), without the white space between its elements. -/
def readHeader (ncName : Text → Bool) (ks : List X) : Option Header :=
  match ks with
  | .elem t as sk :: rest =>
    if t = senderTag ∧ as.isEmpty = true then
      match simple sk, readTail ncName rest with
      | some s, some (rs, ty) => some ⟨some s, rs, ty⟩
      | _, _ => none
    else (readTail ncName ks).map (fun p => ⟨none, p.1, p.2⟩)
  | _ => none

/-- The attributes of a message: a sequence identifier that is not empty, and namespaces (xsd/ebutt_livemessage.xsd:36). -/
def readAttrs (as : List (Text × Text)) : Option Text :=
  if as.all (fun a => a.1 = sidName || "xmlns".toList.isPrefixOf a.1) = true then
    match as.find? (fun a => a.1 = sidName) with
    | some a => if a.2 = [] then none else some a.2
    | none => none
  else none

/-- The binding of a message: the sequence identifier, the header, the content of the payload. -/
structure Binding where
  sid : Text
  header : Header
  content : List X

/-- `message_type` (xsd/ebutt_livemessage.xsd:24-38): the header and the payload; `none` if PyXB refuses. -/
def readTree (ncName : Text → Bool) : X → Option Binding
  | .elem _ as ks =>
    match readAttrs as, Xml.dropBlank ks with
    | some sid, [.elem ht has hks, .elem pt _ pks] =>
      if ht = headerTag ∧ pt = payloadTag ∧ has.isEmpty = true then
        (readHeader ncName (Xml.dropBlank hks)).map (fun h => ⟨sid, h, pks⟩)
      else none
    | _, _ => none
  | .text _ => none

/-- `create_from_raw_binding` (documents/ebutt3.py:248-256): the availability time it is given is not used; of the content of the
payload the first item is taken. -/
def ofBinding (b : Binding) : Except Err Message :=
  match b.content with
  | [] => .error .noPayload
  | .text d :: _ => .ok ⟨b.sid, b.header.sender, some b.header.recipients, .text d, none⟩
  | x :: _ => .ok ⟨b.sid, b.header.sender, some b.header.recipients, .node x, none⟩

/-- `CreateFromDocument` of a text: a message, or `none` for a document. -/
def parse (ncName : Text → Bool) (s : Text) : Except Err (Option Binding) :=
  match Xml.readDoc s with
  | some (.elem t as ks) =>
    if t = messageTag then
      match readTree ncName (.elem t as ks) with
      | some b => .ok (some b)
      | none => .error .refused
    else .ok none
  | _ => .error .refused

/-- `EBUTT3ObjectBase.create_from_xml` (documents/ebutt3.py:157-163): the class is looked up by the type of the message; for a text
that is no message the result is `None`. -/
def createFromXml (ncName : Text → Bool) (s : Text) : Except Err (Option Message) :=
  match parse ncName s with
  | .error e => .error e
  | .ok none => .ok none
  | .ok (some b) => if b.header.type = requestType then (ofBinding b).map some else .error .otherType

/-- `XMLtoEBUTT3Adapter.convert_data` (adapters/document_data.py:21-43) with the sequence identifier of the connection, if there is
one; `none` for a document.  The type of a message is not looked at. -/
def adapt (ncName : Text → Bool) (channel : Option Text) (s : Text) : Except Err (Option Message) :=
  match parse ncName s with
  | .error e => .error e
  | .ok none => .ok none
  | .ok (some b) =>
    match ofBinding b with
    | .error e => .error e
    | .ok m =>
      match channel with
      | none => .ok (some m)
      | some q => if q = m.sid then .ok (some m) else .error .otherSequence

/-! ### Travelling -/

/-- What a message goes through. -/
inductive Leg where
  /-- `HandoverNode` with its output sequence identifier (node/handover.py:92-97) -/
  | handover (sid : Text)
  /-- `RetimingDelayNode` (node/delay.py:78-79) -/
  | retime
  /-- written by `EBUTT3toXMLAdapter` (adapters/document_data.py:85-91) or a `DistributingNode` (node/distributing.py:48-56), carried
  with its sequence identifier, possibly through a `BufferDelayNode` (node/delay.py:96-98), and read by `XMLtoEBUTT3Adapter` -/
  | carry
  /-- `DeDuplicatorNode` (node/deduplicator.py:34-49), `SimpleConsumer` and `ReSequencer` (node/consumer.py:29-56, 120-122),
  `EBUTTDEncoder` (node/encoder.py:35-48): nothing is done -/
  | ignore

/-- What comes out of a leg; `none` if nothing does. -/
def Leg.pass (ncName : Text → Bool) : Leg → Message → Except Err (Option Message)
  | .handover q, m => .ok (some { m with sid := q })
  | .retime, m => .ok (some m)
  | .carry, m =>
    match write m with
    | .error e => .error e
    | .ok s => adapt ncName (some m.sid) s
  | .ignore, _ => .ok none

/-- What comes out at the end of a journey. -/
def travel (ncName : Text → Bool) : List Leg → Message → Except Err (Option Message)
  | [], m => .ok (some m)
  | l :: ls, m =>
    match l.pass ncName m with
    | .error e => .error e
    | .ok none => .ok none
    | .ok (some m') => travel ncName ls m'

end Verif.Msg
