import Verif.Xml.Model
import Verif.Time.Model

/-!
# The user input page

Model of `/repo/ebu_tt_live/ui/user_input_producer/uip.js`, the templates in `template/` beside it, and the parts of
`index.html` that tell which buttons can be clicked: the page on which subtitles are typed and sent over a websocket.

* `uip.js` keeps its state in variables, in the elements of the page and in the browser's local storage. What is stored when is in the
  model (`stored`); a browser without local storage is not.
* What a handler that raises has done before it raises, stays done (`Outcome`).
* The websocket is the browser's: `send` raises while it is connecting and does nothing when it is closing or closed.
* Not modelled: SMPTE, which the page does not offer (index.html:38-40); notifications, the running clocks, and the list of received
  documents but for its length.
-/
namespace Verif.Ui

open Verif.Xml (Text)

/-! ### Documents -/

/-- What the page knows of a sequence (uip.js:332-367): the time base, the clock mode if that is `clock`, the authors
group identifier if it is not empty. -/
structure Seq where
  timeBase : Text
  clockMode : Option Text
  group : Option Text
deriving DecidableEq, Repr

/-- `template_data` of a document (uip.js:464-498).  An empty text of `begin`, `end`, `dur` or the token counts as
absent in the template. -/
structure Data where
  sid : Text
  num : Nat
  seq : Seq
  token : Text
  body : Text
  beg : Text
  fin : Text
  dur : Text
deriving DecidableEq, Repr

/-- A line break. -/
def brTag : Text := "<tt:br/>".toList

/-- Line ends become `br` elements: `replace(/\r?\n|\r/g, "<tt:br/>")` (uip.js:493). -/
def brs : Text → Text
  | '\r' :: '\n' :: cs => brTag ++ brs cs
  | '\r' :: cs => brTag ++ brs cs
  | '\n' :: cs => brTag ++ brs cs
  | c :: cs => c :: brs cs
  | [] => []

/-- The value of the text area as the page reads it: `replace(/\r?\n/g, "\r\n")` (uip.js:671-675). -/
def areaVal : Text → Text
  | '\r' :: '\n' :: cs => '\r' :: '\n' :: areaVal cs
  | '\n' :: cs => '\r' :: '\n' :: areaVal cs
  | c :: cs => c :: areaVal cs
  | [] => []

/-- An attribute of the template. -/
def attr (name value : Text) : Text := name ++ "=\"".toList ++ value ++ "\"".toList

/-- One attribute of the template, on a line of its own, that is there if its value is not empty. -/
def optAttr (before name value after : Text) : Text :=
  if value = [] then [] else before ++ attr name value ++ after

/-- The namespaces of the template. -/
def namespaces : List (Text × Text) :=
  [("xml:lang".toList, "en-GB".toList), ("xmlns:ebuttm".toList, "urn:ebu:tt:metadata".toList),
   ("xmlns:ebuttp".toList, "urn:ebu:tt:parameters".toList), ("xmlns:ebutts".toList, "urn:ebu:tt:style".toList),
   ("xmlns:tt".toList, "http://www.w3.org/ns/ttml".toList), ("xmlns:tts".toList, "http://www.w3.org/ns/ttml#styling".toList),
   ("xmlns:ttp".toList, "http://www.w3.org/ns/ttml#parameter".toList), ("xmlns:xml".toList, "http://www.w3.org/XML/1998/namespace".toList)]

/-- The attributes of `tt:tt` and the namespaces (template/user_input_producer_template.xml:2-29). -/
def startTag (d : Data) : Text :=
  "<tt:tt".toList ++
  "\n        ".toList ++ attr "ebuttp:sequenceIdentifier".toList d.sid ++
  "\n        ".toList ++ attr "ebuttp:sequenceNumber".toList (Verif.Time.digs d.num) ++
  "\n        ".toList ++ attr "ttp:timeBase".toList d.seq.timeBase ++ "\n      ".toList ++
  optAttr "\n        ".toList "ttp:clockMode".toList (d.seq.clockMode.getD []) "\n      ".toList ++ "\n      \n      ".toList ++
  optAttr "\n        ".toList "ebuttp:authorsGroupIdentifier".toList (d.seq.group.getD []) "\n      ".toList ++ "\n      ".toList ++
  optAttr "\n        ".toList "ebuttp:authorsGroupControlToken".toList d.token "\n      ".toList ++
  namespaces.flatMap (fun a => "\n        ".toList ++ attr a.1 a.2) ++ ">".toList

/-- The head, which is always the same (template/user_input_producer_template.xml:30-42). -/
def headText : Text :=
  "\n  <tt:head>\n    <tt:metadata>\n      <ebuttm:documentMetadata/>\n    </tt:metadata>\n    <tt:styling>\n      <tt:style xml:id=\"styleP\" tts:color=\"rgb(255, 255, 255)\"  ebutts:linePadding=\"0.5c\" tts:fontFamily=\"sansSerif\" />\n      <tt:style xml:id=\"styleSpan\" tts:backgroundColor=\"rgb(0, 0, 0)\"/>\n    </tt:styling>\n    <tt:layout>\n      <tt:region xml:id=\"bottomRegion\" tts:origin=\"14.375% 60%\" tts:extent=\"71.25% 24%\" tts:displayAlign=\"after\" tts:writingMode=\"lrtb\" tts:overflow=\"visible\" />\n    </tt:layout>\n  </tt:head>\n  ".toList

/-- The fixed parts of the body (template/user_input_producer_template.xml:43, 53-59). -/
def bodyOpen : Text := "<tt:body\n  ".toList
def innerText : Text :=
  ">\n    <tt:div region=\"bottomRegion\">\n      <tt:p xml:id=\"p1\" style=\"styleP\"><tt:span style=\"styleSpan\">".toList
def tailText : Text := "</tt:span></tt:p>\n    </tt:div>\n  </tt:body>\n</tt:tt>".toList
def indent2 : Text := "\n  ".toList
def indent4 : Text := "\n    ".toList

/-- The body (template/user_input_producer_template.xml:43-59). -/
def bodyText (d : Data) : Text :=
  bodyOpen ++
  optAttr indent4 "begin".toList d.beg indent2 ++ indent2 ++
  optAttr indent4 "end".toList d.fin indent2 ++ indent2 ++
  optAttr indent4 "dur".toList d.dur indent2 ++ indent2 ++
  innerText ++ d.body ++ tailText

/-- The first line. -/
def prolog : Text := "<?xml version=\"1.0\" ?>\n".toList

/-- `nunjucks.render` of the template; values are put in as they are (`autoescape: false`, uip.js:460-462). -/
def render (d : Data) : Text := prolog ++ startTag d ++ headText ++ bodyText d

/-- A handover message (uip.js:500-518, template/live_message_template.xml). -/
def renderMessage (sid payload : Text) : Text :=
  "<?xml version=\"1.0\" ?>\n<ebuttlm:message\n        ebuttp:sequenceIdentifier=\"".toList ++ sid ++
  "\"\n        xmlns:ebuttp=\"urn:ebu:tt:parameters\"\n        xmlns:ebuttlm=\"urn:ebu:tt:livemessage\" >\n    <ebuttlm:header>\n      ".toList ++
  (if sid = [] then [] else "\n        <ebuttlm:sender>".toList ++ sid ++ "</ebuttlm:sender>\n      ".toList) ++
  "\n      \n      \n      \n        <ebuttlm:type>authorsGroupControlRequest</ebuttlm:type>\n    </ebuttlm:header>\n    <ebuttlm:payload>".toList ++ payload ++
  "</ebuttlm:payload>\n</ebuttlm:message>".toList

/-! ### The page -/

/-- `readyState` of a websocket. -/
inductive Ready where
  | connecting | «open» | closing | closed
deriving DecidableEq, Repr

/-- A websocket: the sequence of its URL and its state. -/
structure Sock where
  sid : Text
  ready : Ready
deriving DecidableEq, Repr

/-- The radio buttons for the way of sending (index.html:95-99). -/
inductive Sending where
  | live | scheduled | asynchronous
deriving DecidableEq, Repr

/-- What is kept when the page is loaded again (uip.js:17-26): the options of the selector in order, the sequences and
their numbers. -/
structure Store where
  options : List Text := []
  seqs : List (Text × Seq) := []
  nums : List (Text × Nat) := []
deriving DecidableEq, Repr

/-- The page. `cur` is `socket.websocket`, `handled` the websockets that have a handler for their end. `sent` is what left on
which websocket. -/
structure Page where
  store : Store := {}
  stored : Store := {}
  selected : Option Text := none
  sending : Sending := .live
  interval : Bool := false
  socks : List Sock := []
  cur : Option Nat := none
  connected : Bool := false
  handled : List Nat := []
  text : Text := []
  beg : Text := []
  fin : Text := []
  dur : Text := []
  token : Text := []
  maxLines : Nat := 2
  timers : List Data := []
  sent : List (Nat × Data) := []
  messages : List (Nat × Text) := []
deriving DecidableEq, Repr

/-- The value of a key, the last one set. -/
def get {α : Type} (k : Text) : List (Text × α) → Option α
  | [] => none
  | (k', v) :: l => if k' = k then some v else get k l

def set {α : Type} (k : Text) (v : α) (l : List (Text × α)) : List (Text × α) := (k, v) :: l

/-- `createTemplateDict` (uip.js:464-498); `none` is the `TypeError` for a sequence that is not known. -/
def Page.data (p : Page) : Option Data :=
  match p.selected with
  | none => none
  | some q =>
    match get q p.store.seqs, get q p.store.nums with
    | some s, some n => some ⟨q, n, s, p.token, brs (areaVal p.text), p.beg, p.fin, p.dur⟩
    | _, _ => none

/-- `websocket.send`: the page afterwards, or `none` if it raised. -/
def Page.send (p : Page) (d : Data) : Option Page :=
  match p.cur with
  | none => some p
  | some k =>
    match p.socks[k]? with
    | some ⟨_, .connecting⟩ => none
    | some ⟨_, .open⟩ => some { p with sent := p.sent ++ [(k, d)] }
    | _ => some p

/-- The number of the sequence is one more, and stored (uip.js:582-588, 595-596). -/
def Page.count (p : Page) (q : Text) (n : Nat) : Page :=
  let st := { p.store with nums := set q (n + 1) p.store.nums }
  { p with store := st, stored := { p.stored with nums := st.nums } }

/-- `submitDocument`, not scheduled, and `asyncSubmit` (uip.js:562-618): a document is made and sent and the number counted,
unless something raises. -/
def Page.submit (p : Page) : Page :=
  match p.data with
  | none => p
  | some d =>
    match p.send d with
    | none => p
    | some p' => p'.count d.sid d.num

/-- `submitDocument` when sending is scheduled (uip.js:565-584): the document, rendered, goes to a timer. -/
def Page.schedule (p : Page) : Page :=
  match p.data with
  | none => p
  | some d => { p with timers := p.timers ++ [d] }.count d.sid d.num

/-- A character before the first line. -/
def onFirst (c : Char) : List Text → List Text
  | l :: ls => (c :: l) :: ls
  | [] => [[c]]

/-- The lines of a text: `split(/\r?\n|\r/)` (uip.js:654). -/
def splitLines : Text → List Text
  | '\r' :: '\n' :: cs => [] :: splitLines cs
  | '\r' :: cs => [] :: splitLines cs
  | '\n' :: cs => [] :: splitLines cs
  | c :: cs => onFirst c (splitLines cs)
  | [] => [[]]

/-- `join('\r\n')`, which the text area keeps as `\n` (uip.js:658). -/
def joinLines : List Text → Text
  | [] => []
  | [l] => l
  | l :: ls => l ++ '\n' :: joinLines ls

/-- One turn of `while (new_text_arr.length >= max_lines) shift()` (uip.js:655-657): `none` when the loop is over. -/
def shiftOnce (max : Nat) (ls : List Text) : Option (List Text) :=
  if ls.length ≥ max then some ls.tail else none

/-- The loop, for at most so many turns: `none` if it goes on. -/
def shiftLoop (max : Nat) : Nat → List Text → Option (List Text)
  | 0, _ => none
  | n + 1, ls =>
    match shiftOnce max ls with
    | none => some ls
    | some ls' => shiftLoop max n ls'

/-- What is left by the loop, for a maximum that is not zero (`shiftLoop_eq`). -/
def shiftAll (max : Nat) (ls : List Text) : List Text := ls.drop (ls.length + 1 - max)

/-- What can happen. -/
inductive Ev where
  /-- "Validate" of a new sequence, with the values of its form -/
  | create (q : Text) (s : Seq)
  | select (q : Text)
  | resetAll
  /-- the page is loaded again -/
  | reload
  | mode (m : Sending)
  /-- the button "Now!" -/
  | now
  /-- the button "Schedule" -/
  | schedule
  /-- Enter, space or escape in the text area -/
  | enter | space | escape
  | start | stop
  /-- the interval for asynchronous sending has passed -/
  | tick
  /-- a timer for a scheduled document has run out -/
  | timer
  | connect | disconnect
  /-- events of a websocket -/
  | opened (k : Nat) | failed (k : Nat) | closed (k : Nat) | received (k : Nat)
  /-- editing -/
  | type (text beg fin dur token : Text) (maxLines : Nat)
  | request (payload : Text)
deriving DecidableEq, Repr

def setReady (k : Nat) (r : Ready) (l : List Sock) : List Sock := l.modify k (fun s => { s with ready := r })

/-- `sendDocument` (uip.js:620-627), for a sending that is not scheduled. -/
def Page.sendDocument (p : Page) : Page :=
  match p.sending with
  | .scheduled => p.schedule
  | _ => p.submit

/-- What a key does before the browser inserts it (uip.js:637-647). The space that the browser inserts comes with a later `type`. -/
def Page.key (p : Page) : Page := if p.sending = .live then p.sendDocument else p

/-- The handlers. An event that the page cannot produce in its state changes nothing: hidden buttons (uip.js:76-100), the
interval when it is not running, events of websockets that are not in a state for them. -/
def step (p : Page) : Ev → Page
  | .create q s =>
    -- uip.js:332-377
    if q = [] then p
    else
      let st : Store := ⟨p.store.options ++ [q], set q s p.store.seqs, set q 1 p.store.nums⟩
      { p with store := st, stored := st, selected := p.selected.orElse (fun _ => some q) }
  | .select q => if q ∈ p.store.options then { p with selected := some q } else p
  | .resetAll => { p with store := {}, stored := {}, selected := none }    -- uip.js:380-388
  | .reload =>
    -- a new page with what was stored (uip.js:17-26); its first option is selected
    { store := p.stored, stored := p.stored, selected := p.stored.options.head?, socks := p.socks.map (fun s => { s with ready := .closed }),
      sent := p.sent, messages := p.messages }
  | .mode m => { p with sending := m }
  | .now => if p.sending = .live then p.sendDocument else p
  | .schedule => p                                                         -- no handler (index.html:115)
  | .enter =>
    let p := p.key
    -- lines are removed (uip.js:651-659), the browser inserts a line break where the caret is, at the end, and one line is emptied (662-668)
    if p.maxLines = 0 then p
    else if p.maxLines = 1 then { p with text := [] }
    else { p with text := joinLines (shiftAll p.maxLines (splitLines p.text)) ++ ['\n'] }
  | .space => p.key
  | .escape => { p.key with text := [] }
  | .start => if p.sending = .asynchronous then { p with interval := true } else p    -- uip.js:441-450
  | .stop => if p.sending = .asynchronous then { p with interval := false } else p    -- uip.js:452-458
  | .tick => if p.interval = true then p.submit else p
  | .timer =>
    -- uip.js:599-618, a document that was rendered before
    match p.timers with
    | [] => p
    | d :: l =>
      match p.data with
      | none => { p with timers := l }
      | some _ => { (p.send d).getD p with timers := l }
  | .connect =>
    -- uip.js:398-411
    if p.connected = true then p
    else { p with socks := p.socks ++ [⟨p.selected.getD "null".toList, .connecting⟩], cur := some p.socks.length }
  | .disconnect =>
    -- uip.js:414-418
    if p.connected = true then
      match p.cur with
      | none => p
      | some k => { p with socks := setReady k .closing p.socks }
    else p
  | .opened k =>
    -- uip.js:260-266
    match p.socks[k]? with
    | some ⟨_, .connecting⟩ =>
      { p with socks := setReady k .open p.socks, connected := true, handled := p.cur.toList ++ p.handled }
    | _ => p
  | .failed k =>
    -- uip.js:252-258
    match p.socks[k]? with
    | some ⟨_, .connecting⟩ => { p with socks := setReady k .closed p.socks, connected := false, cur := none }
    | _ => p
  | .closed k =>
    -- uip.js:268-274
    match p.socks[k]? with
    | some ⟨_, .open⟩ | some ⟨_, .closing⟩ =>
      if k ∈ p.handled then { p with socks := setReady k .closed p.socks, connected := false, cur := none }
      else { p with socks := setReady k .closed p.socks }
    | _ => p
  | .received k =>
    -- uip.js:276-281: a message from the server ends the connection
    match p.socks[k]?, p.cur with
    | some ⟨_, .open⟩, some c => { p with socks := setReady c .closing p.socks }
    | _, _ => p
  | .type text beg fin dur token m => { p with text := text, beg := beg, fin := fin, dur := dur, token := token, maxLines := m }
  | .request payload =>
    -- uip.js:520-528, 688-699
    if p.connected = true then
      match p.cur with
      | none => p
      | some k =>
        match p.socks[k]? with
        | some ⟨_, .open⟩ => { p with messages := p.messages ++ [(k, renderMessage (p.selected.getD []) payload)] }
        | _ => p
    else p

def run (evs : List Ev) : Page := evs.foldl step {}

end Verif.Ui
