import Verif.Time.Formats

/-!
# The context of the XML parser

While a document is parsed, the classes of its times are chosen with the help of a dictionary kept per thread
(`/repo/ebu_tt_live/bindings/pyxb_utils.py:14-53`), which the time base of the `tt` element and the name of the
timing attribute at hand are put into (`bindings/__init__.py:446-456, 681-684, 752-755, 829-832, 899-903`,
`bindings/validation/base.py:26-36`, `bindings/validation/timing.py:25-30`) and which the classes look at
(`bindings/_ebuttdt.py:44-90`).  This models any number of threads parsing documents and making times.
-/
namespace Verif.Time

/-- The dictionary: the keys `timeBase` and `timing_attribute_name`. -/
structure Ctx where
  base : Option TimeBase
  attr : Option TimeAttr
deriving DecidableEq, Repr

/-- One thread's copy of `__xml_parsing_context`, a `threading.local`.  `parsing` is `none` in a thread that has
not set it: the module sets it only in the thread that imports it (pyxb_utils.py:14-15). -/
structure Cell where
  parsing : Option Bool
  ctx : Ctx
deriving DecidableEq, Repr

/-- `reset_xml_parsing_context` (pyxb_utils.py:36-39). -/
def resetCtx (parsing : Bool) (_ : Cell) : Cell := ⟨some parsing, ⟨none, none⟩⟩

/-- `xml_parsing_context.__enter__` (pyxb_utils.py:49-50). -/
def enterCtx (c : Cell) : Cell := resetCtx true c

/-- `xml_parsing_context.__exit__` (pyxb_utils.py:52-53); a `with` statement runs it whether or not the body
raised. -/
def exitCtx (c : Cell) : Cell := resetCtx false c

/-- What `get_xml_parsing_context` gives (pyxb_utils.py:18-33). -/
inductive Got where
  /-- the `AttributeError` of a thread where `parsing` is not set -/
  | raised
  /-- `None`: not parsing -/
  | idle
  | dict (c : Ctx)

def getCtx (c : Cell) : Got :=
  match c.parsing with
  | none => .raised
  | some false => .idle
  | some true => .dict c.ctx

/-- What making a value of a class comes to, before its text is looked at. -/
inductive Leave where
  /-- the `AttributeError` or `KeyError` that ends the parse -/
  | raised
  /-- the `SimpleTypeValueError` that makes a union try the next class -/
  | refused
  | granted
deriving DecidableEq, Repr

/-- `_TimedeltaBindingMixin._ConvertArguments_vx` (_ebuttdt.py:58-84). -/
def mayMake (c : Cell) (ty : TimeType) : Leave :=
  match getCtx c with
  | .raised => .raised
  | .idle => .granted
  | .dict x =>
    match x.base with
    | none => .raised
    | some b =>
      match x.attr with
      | none => .granted
      | some a => if b ∈ compatible ty a then .granted else .refused

/-- A union (of PyXB): the first class that takes the text.  `none`: an exception. -/
def makeUnion (c : Cell) (text : List Char) : List TimeType → Option TimeType
  | [] => none
  | ty :: tys =>
    match mayMake c ty with
    | .raised => none
    | .refused => makeUnion c text tys
    | .granted => if pattern ty text = true then some ty else makeUnion c text tys

/-- The elements of the head that hold a time (ebutt_metadata.xsd:256, 345). -/
inductive HeadTime where
  | startOfProgramme | mediaDuration
deriving DecidableEq, Repr

/-- Their types, unions without the nesting (ebutt_datatypes.xsd:153-162). -/
def headUnion : HeadTime → List TimeType
  | .startOfProgramme => [.limitedClock, .timecount, .smpte]
  | .mediaDuration => [.timecount, .fullClock]

/-- What a parser meets, in the order of the text. -/
inductive Ev where
  /-- `ttp:timeBase` of the `tt` element -/
  | base (b : TimeBase)
  /-- a time as content of an element -/
  | elem (h : HeadTime) (text : List Char)
  /-- a timing attribute of `body`, `div`, `p` or `span` -/
  | attr (a : TimeAttr) (text : List Char)
  /-- a timing attribute of an EBU-TT-D document, of type `mediaTimingType` (ebutt_d.xsd:216-277) -/
  | attrD (text : List Char)

/-- The effect of one of these: the context, and the class of the value made, if any.  `none` is an exception.
An EBU-TT Live element has its hooks called (validation/base.py:26-33): that of `tt` puts in the time base
(bindings/__init__.py:448-456), those of the timed elements the name (timing.py:25-30); nothing takes the name
out again.  EBU-TT-D elements have no hooks (bindings/__init__.py:1104-1147). -/
def meet (c : Cell) : Ev → Option (Cell × Option TimeType)
  | .base b =>
    match getCtx c with
    | .raised => none
    | .idle => some (c, none)
    | .dict x => some ({ c with ctx := { x with base := some b } }, none)
  | .elem h text => (makeUnion c text (headUnion h)).map (fun ty => (c, some ty))
  | .attr a text =>
    match getCtx c with
    | .raised => none
    | .idle => (makeUnion c text (members' a)).map (fun ty => (c, some ty))
    | .dict x =>
      let c' : Cell := { c with ctx := { x with attr := some a } }
      (makeUnion c' text (members' a)).map (fun ty => (c', some ty))
  | .attrD text => (makeUnion c text [.timecount, .fullClock]).map (fun ty => (c, some ty))

/-- The times of a document: its time base, if it gives one, the times in its head, and the timing attributes
of its body in order. -/
structure TimedDoc where
  base : Option TimeBase
  head : List (HeadTime × List Char)
  body : List (TimeAttr × List Char)
deriving DecidableEq, Repr

/-- What the parser of an EBU-TT Live document meets: `tt` with its attributes, the head, the body. -/
def TimedDoc.events (d : TimedDoc) : List Ev :=
  d.base.toList.map .base ++ d.head.map (fun h => .elem h.1 h.2) ++ d.body.map (fun b => .attr b.1 b.2)

/-- What the parser of an EBU-TT-D document meets: the time base is an attribute without a hook. -/
def TimedDoc.eventsD (d : TimedDoc) : List Ev := d.body.map (fun b => .attrD b.2)

/-- A call: `CreateFromDocument` (bindings/__init__.py:52-59), or `CreateFromDOM` of an EBU-TT-D document
(62-69, documents/ebuttd.py:36-48). -/
inductive Call where
  | live (d : TimedDoc)
  | ebuttd (d : TimedDoc)
deriving DecidableEq, Repr

def Call.events : Call → List Ev
  | .live d => d.events
  | .ebuttd d => d.eventsD

/-- What has come out of a thread. -/
inductive Done where
  /-- a parse, with the classes of the document's times in order, or an exception -/
  | parsed (call : Call) (times : Option (List TimeType))
  /-- a value made by the program itself, `FullClockTimingType(text)` and so on -/
  | made (ty : TimeType) (text : List Char) (ok : Bool)
deriving DecidableEq, Repr

/-- A parse in progress: what is left of the document, and the times so far. -/
structure Busy where
  call : Call
  rest : List Ev
  times : List TimeType

structure Thread where
  cell : Cell
  busy : Option Busy
  log : List Done

/-- What a thread does next. -/
inductive Act where
  | parse (call : Call)
  | go
  | make (ty : TimeType) (text : List Char)

/-- One step of a thread.  Parsing a document is made of many, between which other threads run.  A thread that is
parsing does nothing else. -/
def Thread.act (t : Thread) : Act → Thread
  | .parse call =>
    match t.busy with
    | some _ => t
    | none => { t with cell := enterCtx t.cell, busy := some ⟨call, call.events, []⟩ }
  | .go =>
    match t.busy with
    | none => t
    | some w =>
      match w.rest with
      | [] => { cell := exitCtx t.cell, busy := none, log := t.log ++ [.parsed w.call (some w.times)] }
      | e :: rest =>
        match meet t.cell e with
        | none => { cell := exitCtx t.cell, busy := none, log := t.log ++ [.parsed w.call none] }
        | some (c, v) => { t with cell := c, busy := some { w with rest := rest, times := w.times ++ v.toList } }
  | .make ty text =>
    match t.busy with
    | some _ => t
    | none => { t with log := t.log ++ [.made ty text (decide (mayMake t.cell ty = .granted) && pattern ty text)] }

/-- The threads; the first imports the bindings. -/
abbrev Threads := Nat → Thread

def threads0 : Threads := fun i => ⟨⟨if i = 0 then some false else none, ⟨none, none⟩⟩, none, []⟩

/-- A schedule says which thread does what. -/
def runThreads : Threads → List (Nat × Act) → Threads
  | ts, [] => ts
  | ts, (i, a) :: more => runThreads (fun j => if j = i then (ts i).act a else ts j) more

end Verif.Time
