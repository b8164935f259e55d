import Verif.Fs.Model
import Verif.Ws.Model

/-!
# Adapters, carriages and keyword arguments

How data travels between the components of an application: the adapter between a node and a carriage
(`/repo/ebu_tt_live/adapters/`), the carriages (`carriage/`) and what the nodes do with the keyword
arguments that accompany the data (`node/`).

Reading and writing XML, validation and the conversion to EBU-TT-D are parameters of the model (`Codec`);
other parts of this development model the last two.
-/
namespace Verif.Adapt

/-! ### Data -/

/-- The types components declare with `_expects` and `_provides` (adapters/document_data.py:18-19, :50-51,
:61-62, :73-74, :98-99; node/*.py; carriage/*.py). -/
inductive Ty where
  /-- `ANY` (utils.py:290) -/
  | any
  /-- `six.text_type` -/
  | text
  /-- `EBUTT3Document` -/
  | ebutt3
  /-- `EBUTTDDocument` -/
  | ebuttd
deriving DecidableEq, Repr

/-- `==` of two declared types: `ANY` equals everything (utils.py:278-290). -/
def Ty.eq : Ty → Ty → Bool
  | .any, _ => true
  | _, .any => true
  | a, b => decide (a = b)

/-- The binding of an EBU-TT Live document: the attributes read by carriages and adapters, and all the rest. -/
structure Bind where
  sid : String
  num : Nat
  timeBase : String
  clockMode : Option String
  rest : String
deriving DecidableEq, Repr

/-- `EBUTT3Document` (documents/ebutt3.py:262-313): a binding and an availability time. -/
structure Doc3 where
  bind : Bind
  avail : Option Int
deriving DecidableEq, Repr

/-- The binding of a live message: its sequence identifier, and header and payload. -/
structure MBind where
  sid : String
  rest : String
deriving DecidableEq, Repr

/-- `EBUTTLiveMessage` (documents/ebutt3.py:176-214). -/
structure Msg where
  bind : MBind
  avail : Option Int
deriving DecidableEq, Repr

/-- What can be handed from one component to another. -/
inductive Data where
  | text (s : String)
  | doc (d : Doc3)
  | msg (m : Msg)
  /-- `EBUTTDDocument` with its binding; `none` when it was made from `None` (documents/ebuttd.py:47-51). -/
  | ttd (b : Option String)
deriving DecidableEq, Repr

/-- XML reading and writing, validation and conversion.  `read` is `CreateFromDocument`; `none` is an
exception everywhere. -/
structure Codec where
  write3 : Bind → String
  writeM : MBind → String
  read : String → Option (Bind ⊕ MBind)
  valid : Bind → Option Int → Bool
  writeD : String → String
  readD : String → Option String
  toD : Bind → Option String

/-- Exceptions. -/
inductive Err where
  /-- `CreateFromDocument` refuses the text -/
  | parse
  /-- `validate()` refuses the document -/
  | invalid
  /-- `UnexpectedSequenceIdentifierError` -/
  | otherSequence
  /-- `DataCompatError` -/
  | dataCompat
  /-- data of a type the code cannot handle: `AttributeError` or `TypeError` -/
  | wrongData
  /-- `TypeError`: got multiple values for a keyword argument -/
  | multipleValues
deriving DecidableEq, Repr

/-! ### Keyword arguments -/

/-- Names of keyword arguments. -/
inductive Key where
  | sid
  | num
  | timeBase
  | clockMode
  | avail
  | delay
  | rawXml
  | other (name : String)
deriving DecidableEq, Repr

/-- Their values; `nothing` is Python's `None`. -/
inductive Val where
  | nothing
  | str (s : String)
  | num (n : Nat)
  | time (t : Int)
deriving DecidableEq, Repr

/-- A `**kwargs` dictionary. -/
abbrev Kw := Key → Option Val

/-- No keyword arguments. -/
def Kw.empty : Kw := fun _ => none

/-- `kwargs[k] = v`. -/
def Kw.set (kw : Kw) (k : Key) (v : Val) : Kw := fun x => if x = k then some v else kw x

/-- A parameter named `k` takes the argument out of `**kwargs`. -/
def Kw.drop (kw : Kw) (k : Key) : Kw := fun x => if x = k then none else kw x

def Val.ofTime : Option Int → Val
  | none => .nothing
  | some t => .time t

def Val.ofStr : Option String → Val
  | none => .nothing
  | some s => .str s

/-- The `availability_time` parameter; anything but a time is as good as `None` here. -/
def Kw.avail (kw : Kw) : Option Int :=
  match kw .avail with
  | some (.time t) => some t
  | _ => none

/-! ### Document data adapters -/

/-- The registered adapters (adapters/document_data.py:14-109). -/
inductive Adapter where
  | xmlTo3
  | xmlToD
  | dToXml
  | threeToXml
  | threeToD
deriving DecidableEq, Repr

/-- `_expects` (document_data.py:18, :50, :61, :73, :98). -/
def Adapter.expects : Adapter → Ty
  | .xmlTo3 => .text
  | .xmlToD => .text
  | .dToXml => .ebuttd
  | .threeToXml => .ebutt3
  | .threeToD => .ebutt3

/-- `_provides` (document_data.py:19, :51, :62, :74, :99). -/
def Adapter.provides : Adapter → Ty
  | .xmlTo3 => .ebutt3
  | .xmlToD => .ebuttd
  | .dToXml => .text
  | .threeToXml => .text
  | .threeToD => .ebuttd

/-- The registry filled by `auto_register_impl` (adapters/base.py:22-44) while the module is loaded. -/
def registry : List Adapter := [.xmlTo3, .xmlToD, .dToXml, .threeToXml, .threeToD]

/-- `get_registered_impl` (adapters/base.py:46-53): a dictionary lookup, so `ANY`, which hashes by its
identity, is not found.  `none` is `ValueError`. -/
def lookup (expects provides : Ty) : Option Adapter :=
  registry.find? (fun a => decide (a.expects = expects) && decide (a.provides = provides))

/-- `get_xml()` of a document or message (documents/ebutt3.py:245-246, :533-534, documents/ebuttd.py:64-67). -/
def getXml (X : Codec) : Data → Except Err String
  | .text _ => .error .wrongData
  | .doc d => .ok (X.write3 d.bind)
  | .msg m => .ok (X.writeM m.bind)
  | .ttd none => .error .wrongData
  | .ttd (some b) => .ok (X.writeD b)

/-- The sequence identifier check of `XMLtoEBUTT3Adapter` (document_data.py:35-39). -/
def sidMatches (kw : Kw) (sid : String) : Bool :=
  match kw .sid with
  | none => true
  | some .nothing => true
  | some v => decide (v = .str sid)

/-- `convert_data` of the adapters: `XMLtoEBUTT3Adapter` (document_data.py:21-43; a message loses the
availability time, documents/ebutt3.py:248-256), `XMLtoEBUTTDAdapter` (:53-54), `EBUTTDtoXMLAdapter`
(:64-65), `EBUTT3toXMLAdapter` (:76-91) and `EBUTT3toEBUTTDAdapter` (:103-109).  The last hands the
converter the document object instead of its binding, for which `map_type` has no case
(bindings/converters/ebutt3_ebuttd.py:316-320), so that the binding of the result is `None`. -/
def Adapter.convert (X : Codec) : Adapter → Data → Kw → Except Err (Data × Kw)
  | .xmlTo3, .text s, kw =>
    match X.read s with
    | none => .error .parse
    | some (.inl b) =>
      if X.valid b kw.avail = true then
        (if sidMatches kw b.sid = true then
          .ok (.doc ⟨b, kw.avail⟩, ((kw.drop .avail).drop .sid).set .rawXml (.str s))
         else .error .otherSequence)
      else .error .invalid
    | some (.inr m) =>
      if sidMatches kw m.sid = true then
        .ok (.msg ⟨m, none⟩, ((kw.drop .avail).drop .sid).set .rawXml (.str s))
      else .error .otherSequence
  | .xmlTo3, _, _ => .error .wrongData
  | .xmlToD, .text s, kw =>
    match X.readD s with
    | none => .error .parse
    | some b => .ok (.ttd (some b), kw)
  | .xmlToD, _, _ => .error .wrongData
  | .dToXml, x, kw => (getXml X x).map (fun s => (.text s, kw))
  | .threeToXml, .doc d, kw =>
    .ok (.text (X.write3 d.bind), ((((kw.set .sid (.str d.bind.sid)).set .num (.num d.bind.num)).set .avail
      (.ofTime d.avail)).set .timeBase (.str d.bind.timeBase)).set .clockMode (.ofStr d.bind.clockMode))
  | .threeToXml, .msg m, kw =>
    .ok (.text (X.writeM m.bind), (kw.set .sid (.str m.bind.sid)).set .avail (.ofTime m.avail))
  | .threeToXml, _, _ => .error .wrongData
  | .threeToD, _, kw => .ok (.ttd none, kw)

/-! ### The adapter between a node and a carriage -/

/-- `_set_data_adapters` (adapters/node_carriage.py:20-56): the adapters used between a component that
provides `provides` and one that expects `expects`; `none` is `DataCompatError`. -/
def setDataAdapters (value : Option (List Adapter)) (expects provides : Ty) : Option (List Adapter) :=
  let r : Bool × List Adapter :=
    match value with
    | some l => (true, l)
    | none =>
      if expects.eq provides = false then
        (match lookup provides expects with
         | some a => (true, [a])
         | none => (false, []))
      else (true, [])
  let success : Bool :=
    match r.2.head?, r.2.getLast? with
    | some a, some z => if a.expects.eq provides = false || z.provides.eq expects = false then false else r.1
    | _, _ => expects.eq provides
  if success = true then some r.2 else none

/-- `ProducerNodeCarriageAdapter.__init__` (node_carriage.py:75-86): the node's type and the carriage's. The
registrations that follow (:88-94; node/base.py:44-61; carriage/base.py:25-41) compare each type with
itself. -/
def wireProducer (node carriage : Ty) (value : Option (List Adapter)) : Option (List Adapter) :=
  setDataAdapters value carriage node

/-- `ConsumerNodeCarriageAdapter.__init__` (node_carriage.py:133-144). -/
def wireConsumer (node carriage : Ty) (value : Option (List Adapter)) : Option (List Adapter) :=
  setDataAdapters value node carriage

/-- `AbstractNodeCarriageAdapter.convert_data` (node_carriage.py:58-65), the conversion applied by `emit_data`
(:113-116) and `process_document` (:171-174). -/
def convertAll (X : Codec) : List Adapter → Data → Kw → Except Err (Data × Kw)
  | [], x, kw => .ok (x, kw)
  | a :: as, x, kw =>
    match a.convert X x kw with
    | .error e => .error e
    | .ok (y, kw') => convertAll X as y kw'

/-- Adapters named in a configuration (config/adapters.py:6-11); an unknown name is a `TypeError`, as `None` is
called (:14-22). -/
def adapterOfName : String → Option Adapter
  | "xml->ebutt3" => some .xmlTo3
  | "xml->ebuttd" => some .xmlToD
  | "ebutt3->xml" => some .threeToXml
  | "ebuttd->xml" => some .dToXml
  | _ => none

/-- `parse_adapter_list` (config/adapters.py:14-22), the outer `none` being the `TypeError`.  An empty list
counts as no list. -/
def parseAdapters (value : Option (List String)) : Option (Option (List Adapter)) :=
  match value with
  | none => some none
  | some l => (l.mapM adapterOfName).map (fun as => if as = [] then none else some as)

/-! ### Stages of a chain joined by in-memory carriages -/

/-- What a datum goes through: an adapter, or a node that is handed it and may emit something.  `f` is what
the node does to the binding of a document it passes on, `none` if it does not pass it on (seen before, not
selected, refused); these decisions are modelled in `Verif.Node`. -/
inductive Stage where
  | adapter (a : Adapter)
  /-- `RetimingDelayNode` (node/delay.py:33-79) -/
  | retime (f : Bind → Option Bind)
  /-- `HandoverNode` (node/handover.py:35-97) with its output sequence identifier -/
  | handover (sid : String) (f : Bind → Option Bind)
  /-- `DeDuplicatorNode` (node/deduplicator.py:34-49) -/
  | dedup (f : Bind → Option Bind)
  /-- `DistributingNode` (node/distributing.py:23-57) handed a new document -/
  | distribute
  /-- `BufferDelayNode` (node/delay.py:82-98) -/
  | buffer (delay : Int)
  /-- `EBUTTDEncoder` (node/encoder.py:35-48) handed a document of its sequence -/
  | encode

/-- A node that changes the document it passes on, keyword arguments as they are
(`emit_data(data=document, **kwargs)`). -/
def passOn (d : Doc3) (kw : Kw) : Option Bind → Option (Data × Kw)
  | none => none
  | some b => some (.doc { d with bind := b }, kw)

/-- `process_document` of a stage: what is emitted.  An `EBUTTDDocument` counts as a document for
`is_document` (node/base.py:83-87) but has no sequence identifier; a text is no document.
`emit_data(data=..., k=v, **kwargs)` raises if `k` is in `kwargs`. -/
def Stage.run (X : Codec) : Stage → Data → Kw → Except Err (Option (Data × Kw))
  | .adapter a, x, kw => (a.convert X x kw).map some
  | .retime f, .doc d, kw => .ok (passOn d kw (f d.bind))
  | .retime _, .ttd _, _ => .error .wrongData
  | .retime _, x, kw => .ok (some (x, kw))
  | .handover _ f, .doc d, kw => .ok (passOn d kw (f d.bind))
  | .handover s _, .msg m, kw => .ok (some (.msg { m with bind := { m.bind with sid := s } }, kw))
  | .handover _ _, _, _ => .error .wrongData
  | .dedup f, .doc d, kw => .ok (passOn d kw (f d.bind))
  | .dedup _, .ttd _, _ => .error .wrongData
  | .dedup _, _, _ => .ok none
  | .distribute, .doc d, kw =>
    .ok (some (.text (match kw .rawXml with | some (.str s) => s | _ => X.write3 d.bind),
      (((((kw.drop .rawXml).set .sid (.str d.bind.sid)).set .num (.num d.bind.num)).set .timeBase
        (.str d.bind.timeBase)).set .avail (.ofTime d.avail)).set .clockMode (.ofStr d.bind.clockMode)))
  | .distribute, .msg m, kw =>
    .ok (some (.text (X.writeM m.bind),
      ((kw.drop .rawXml).set .sid (.str m.bind.sid)).set .avail (.ofTime m.avail)))
  | .distribute, _, _ => .error .wrongData
  | .buffer d, x, kw => if (kw .delay).isSome = true then .error .multipleValues else .ok (some (x, kw.set .delay (.time d)))
  | .encode, .doc d, kw =>
    match X.toD d.bind with
    | none => .error .invalid
    | some b =>
      if (kw .sid).isSome = true ∨ (kw .timeBase).isSome = true then .error .multipleValues
      else .ok (some (.ttd (some b), (kw.set .sid (.str "default")).set .timeBase (.str "media")))
  | .encode, .ttd _, _ => .error .wrongData
  | .encode, _, _ => .ok none

/-- A chain of nodes and adapters joined by `DirectCarriageImpl` (carriage/direct.py:5-17), which hands data and
keyword arguments on as they are. -/
def runChain (X : Codec) : List Stage → Data → Kw → Except Err (Option (Data × Kw))
  | [], x, kw => .ok (some (x, kw))
  | s :: ss, x, kw =>
    match s.run X x kw with
    | .error e => .error e
    | .ok none => .ok none
    | .ok (some (y, kw')) => runChain X ss y kw'

/-! ### The ends of a chain -/

/-- `FilesystemProducerImpl.emit_data` (carriage/filesystem.py:132-133): what its parameters become.  `clock` is
the reading of the default clock used without an availability time (:99-123), `none` without a clock.  A
missing sequence identifier is written as `None`. -/
def fsOut (clock : Option Int) (s : String) (kw : Kw) : Fs.Out where
  seq := match kw .sid with | some (.str q) => q.toList | _ => "None".toList
  num := match kw .num with | some (.num n) => some n | _ => none
  data := s.toList
  avail := match kw.avail with | some t => some t | none => clock
  delay := match kw .delay with | some (.time d) => some d | _ => none

/-- What `FilesystemConsumerImpl.on_new_data` (carriage/filesystem.py:213-218) hands to the node. -/
def fsIn (r : Int × Fs.Text) : Data × Kw := (.text (String.ofList r.2), Kw.empty.set .avail (.time r.1))

/-- `WebsocketProducerCarriage.emit_data` (carriage/websocket.py:22-24) and
`TwistedWSPushProducer.emit_data` (twisted/websocket.py:158-164). -/
def wsOut (s : String) (kw : Kw) : Ws.Ev :=
  let q := match kw .sid with | some (.str q) => q | _ => "default"
  match kw .delay with
  | some (.time _) => .emitLater q s
  | _ => .emit q s

/-- What a websocket consumer hands to the node (twisted/websocket.py:232-240, :360-368;
carriage/websocket.py:31-32): the text and the sequence identifier of the connection. -/
def wsIn (q s : String) : Data × Kw := (.text s, Kw.empty.set .sid (.str q))

end Verif.Adapt
