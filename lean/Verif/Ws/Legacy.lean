/-
Model of the websocket server that the user input page talks to (`/repo/ebu_tt_live/twisted/websocket.py:18-73, 448-467`) and of
the legacy protocol with channels (`/repo/ebu_tt_live/twisted/websocket.py:423-445, 470-619`).

Both run in one reactor thread: every call of a protocol runs to its end before the next one, so a course of events is a
list.  Connections are numbered; a connection is opened once.
-/
namespace Verif.Ws.Legacy

/-! ### User input server -/

/-- The text of an exception: `str(e)` of a message with other than ASCII characters raises in Python 2. -/
structure Failure where
  text : List Char
  deriving DecidableEq, Repr

/-- `str` of a unicode text works. -/
def asciiOnly (s : List Char) : Bool := s.all (fun c => decide (c.toNat < 128))

/-- What is sent to a page. -/
inductive Reply where
  | success
  | error (text : List Char)
  deriving DecidableEq, Repr

/-- What happens at the server: connections open, messages arrive, connections close. -/
inductive UEv (P : Type) where
  | opened (c : Nat)
  | message (c : Nat) (payload : P)
  | lost (c : Nat)
  deriving DecidableEq, Repr

/-- The server: the node behind it, the factory's `_clients`, what was sent (latest first) and the calls that raised. -/
structure UState (σ : Type) where
  node : σ
  clients : List Nat := []
  sent : List (Nat × Reply) := []
  raised : List Nat := []

/-- One event (websocket.py:20-43, 56-70, 448-467).  `take` is `process_document` of the node: its state afterwards and the exception,
if it raises.  Registering again is ignored; nothing happens to `_clients` when a connection is lost. -/
def ustep {σ P : Type} (take : σ → P → σ × Option Failure) (s : UState σ) : UEv P → UState σ
  | .opened c => if s.clients.contains c then s else { s with clients := s.clients ++ [c] }
  | .message c p =>
    match (take s.node p).2 with
    | none => { s with node := (take s.node p).1, sent := (c, .success) :: s.sent }
    | some f =>
      if asciiOnly f.text then { s with node := (take s.node p).1, sent := (c, .error ("ERROR: ".toList ++ f.text)) :: s.sent }
      else { s with node := (take s.node p).1, raised := c :: s.raised }
  | .lost _ => s

/-- A course of events. -/
def urun {σ P : Type} (take : σ → P → σ × Option Failure) (s : UState σ) (evs : List (UEv P)) : UState σ := evs.foldl (ustep take) s

/-! ### Legacy protocol: server -/

/-- A channel in a message: text, another value that can be a member of a set, or one that cannot (a list or an object). -/
inductive Chan where
  | text (s : List Char)
  | other (n : Nat)
  | unhashable
  deriving DecidableEq, Repr

/-- A message of a client as `json.loads` reads it: an object with or without the two keys, or anything else, including what
cannot be read. -/
inductive CMsg where
  | obj (sub unsub : Option Chan)
  | other
  deriving DecidableEq, Repr

/-- Writing the channel to the log works (websocket.py:483, 486): in Python 2 `'{}'.format` of a unicode text with other than ASCII
characters raises. -/
def Chan.loggable : Chan → Bool
  | .text s => asciiOnly s
  | _ => true

/-- `if 'subscribe' in data` (websocket.py:482-484): the set of channels afterwards, or `none` when the log or the set raises. -/
def subscribe (chans : List Chan) : Option Chan → Option (List Chan)
  | none => some chans
  | some .unhashable => none
  | some ch => if ch.loggable then some (if chans.contains ch then chans else chans ++ [ch]) else none

/-- `if 'unsubscribe' in data` (websocket.py:485-487): when the log or `remove` raises, the set stays as it is. -/
def unsubscribe (chans : List Chan) : Option Chan → List Chan
  | none => chans
  | some ch => if ch.loggable then chans.filter (fun x => decide (x ≠ ch)) else chans

/-- `LegacyBroadcastServerProtocol.onMessage` (websocket.py:478-489) for a message that is not binary, on the set of channels: an
exception ends the treatment and is swallowed. -/
def onCMsg (chans : List Chan) : CMsg → List Chan
  | .other => chans
  | .obj sub unsub =>
    match subscribe chans sub with
    | none => chans
    | some cs => unsubscribe cs unsub

/-- What happens at the server. -/
inductive LEv where
  | opened (c : Nat)
  | message (c : Nat) (m : CMsg)
  | binary (c : Nat)
  | lost (c : Nat)
  | broadcast (ch : List Char) (msg : List Char)
  deriving DecidableEq, Repr

/-- The server: the registered clients with their channels, and what was sent, latest first. -/
structure LState where
  clients : List (Nat × List Chan) := []
  sent : List (Nat × List Char) := []
  deriving DecidableEq, Repr

/-- `register`, then a new set of channels (websocket.py:474-476, 529-532). -/
def addClient : List (Nat × List Chan) → Nat → List (Nat × List Chan)
  | [], c => [(c, [])]
  | x :: xs, c => if x.1 = c then (c, []) :: xs else x :: addClient xs c

/-- One event (websocket.py:474-547).  The text of a broadcast is unicode (encoding it does not fail).  Simplified: between the closing
handshake and the loss of the connection autobahn drops what is sent; here a client is there until it is lost. -/
def lstep (s : LState) : LEv → LState
  | .opened c => { s with clients := addClient s.clients c }
  | .message c m => { s with clients := s.clients.map (fun x => if x.1 = c then (x.1, onCMsg x.2 m) else x) }
  | .binary _ => s
  | .lost c => { s with clients := s.clients.filter (fun x => decide (x.1 ≠ c)) }
  | .broadcast ch msg =>
    { s with sent := ((s.clients.filter (fun x => x.2.contains (.text ch))).map (fun x => (x.1, msg))).reverse ++ s.sent }

/-- A course of events. -/
def lrun (s : LState) (evs : List LEv) : LState := evs.foldl lstep s

/-! ### Legacy protocol: client -/

/-- What a client sends when its connection is open (websocket.py:558-566). -/
def onOpen (channels : List (List Char)) : List CMsg := channels.map (fun ch => .obj (some (.text ch)) none)

/-- What happens at a client's factory (websocket.py:574-575, 605-615). -/
inductive FEv where
  | received (msg : List Char)
  | pause
  | resume
  | stop
  deriving DecidableEq, Repr

/-- The factory: `_stopped`, and what the consumer was handed, latest first. -/
structure FState where
  stopped : Bool
  handed : List (List Char) := []
  deriving DecidableEq, Repr

/-- A new factory: registering it as a push producer resumes it (websocket.py:458-461), then `_stopped` is set
(websocket.py:593-595). -/
def FState.init : FState := { stopped := true }

/-- One event: data is handed on whatever `_stopped` says. -/
def fstep (s : FState) : FEv → FState
  | .received msg => { s with handed := msg :: s.handed }
  | .pause => { s with stopped := true }
  | .resume => { s with stopped := false }
  | .stop => { s with stopped := true }

def frun (evs : List FEv) : FState := evs.foldl fstep FState.init

end Verif.Ws.Legacy
