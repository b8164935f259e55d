/-!
# Websocket publishing and subscribing (ebu_tt_live/twisted/websocket.py:76-345)

One server (`BroadcastServerFactory`) with the protocol object of each connection
(`BroadcastServerProtocol`), the producer side (`TwistedWSPushProducer`) and the consumer side
(`TwistedWSConsumer`).  Connections are numbered; the path of a connection's URL is the list of its
decoded segments (`URL.fromText(...).to_iri().path`, websocket.py:101-106).  The data of a message is
a text; UTF-8 encoding is left out.
-/
namespace Verif.Ws

/-- `_valid_actions` (websocket.py:86-89). -/
inductive Action where
  | publish
  | subscribe
deriving DecidableEq, Repr

/-- The `action` setter (websocket.py:131-139): anything but the two valid actions is a `ValueError`. -/
def readAction (s : String) : Option Action :=
  if s = "publish" then some .publish else if s = "subscribe" then some .subscribe else none

/-- What `onOpen` leaves in `_sequence_identifier` and `_action` (websocket.py:219-232): a path of not
exactly two segments sets neither, an unknown action only the identifier; both drop the connection. -/
def parsePath : List String → Option String × Option Action
  | [s, a] => (some s, readAction a)
  | _ => (none, none)

structure Conn where
  id : Nat
  seq : Option String
  action : Option Action
  /-- `connection.consumer` has been set (websocket.py:201-202). -/
  fed : Bool
  /-- `dropConnection` was called or the connection was lost: nothing is sent on it any more. -/
  dropped : Bool
deriving DecidableEq, Repr

/-- What can happen. `emit` with a delay puts the writing into the reactor's hands (websocket.py:158-164);
`fire i` is the reactor running the `i`-th of the calls it holds, in an order of its own choice.  `refused`
is the answer of the consumer: it raised `UnexpectedSequenceIdentifierError`. -/
inductive Ev where
  | opened (c : Nat) (path : List String)
  | lost (c : Nat)
  | message (c : Nat) (data : String) (refused : Bool)
  | emit (seq data : String)
  | emitLater (seq data : String)
  | fire (i : Nat)
deriving DecidableEq, Repr

/-- `conns` are the protocol objects, `registered` the producer's `_connections`, `pending` the
delayed writes, `sent` the messages sent, `consumed` the data handed to the consumer. -/
structure Server where
  conns : List Conn := []
  registered : List Nat := []
  pending : List (String × String) := []
  sent : List (Nat × String) := []
  consumed : List (String × String) := []
deriving DecidableEq, Repr

def Server.find (s : Server) (c : Nat) : Option Conn := s.conns.find? (·.id = c)

/-- Replace the protocol object with a given number. -/
def Server.update (s : Server) (c : Nat) (f : Conn → Conn) : Server :=
  { s with conns := s.conns.map (fun x => if x.id = c then f x else x) }

/-- `sendSequenceMessage` (websocket.py:244-258) and `_send_sequence_message` (:113-125) for one
connection: sent if it subscribes to this sequence; `sendMessage` does nothing on a connection that
has been dropped. A registered connection always has the action `subscribe`, so the branch that drops
the connection (:256-258) is not reached. -/
def sendTo (s : Server) (seq data : String) (c : Nat) : List (Nat × String) :=
  match s.find c with
  | none => []
  | some x =>
    if x.action = some .subscribe then
      (if x.seq = some seq then (if x.dropped then [] else [(c, data)]) else [])
    else []

/-- `_do_write` (websocket.py:172-178). -/
def doWrite (s : Server) (seq data : String) : Server :=
  { s with sent := s.sent ++ s.registered.flatMap (sendTo s seq data) }

/-- One event, on a server with (`prod`) or without a producer and with (`cons`) or without a consumer. -/
def step (prod cons : Bool) (s : Server) : Ev → Server
  /- `onOpen` (websocket.py:219-232) and `BroadcastServerFactory.register` (:312-325) -/
  | .opened c path =>
    match parsePath path with
    | (seq, none) => { s with conns := s.conns ++ [⟨c, seq, none, false, true⟩] }
    | (seq, some .subscribe) =>
      if prod then
        { s with conns := s.conns ++ [⟨c, seq, some .subscribe, false, false⟩], registered := s.registered ++ [c] }
      else { s with conns := s.conns ++ [⟨c, seq, some .subscribe, false, true⟩] }
    | (seq, some .publish) =>
      { s with conns := s.conns ++ [⟨c, seq, some .publish, cons, !cons⟩] }
  /- `connectionLost` (websocket.py:260-262) and `unregister` (:327-331). Removing a connection that is
  not registered, or without producer, raises an error that changes nothing. -/
  | .lost c =>
    match s.find c with
    | none => s
    | some x =>
      let s := s.update c (fun x => { x with dropped := true, fed := if x.action = some .publish then false else x.fed })
      if x.action = some .subscribe then { s with registered := s.registered.erase c } else s
  /- `onMessage` (websocket.py:234-242). A publisher that was refused for want of a consumer has none
  to write to: an `AttributeError`. A refusal drops the connection; other errors of the consumer go to the
  caller, which loses the connection: that is a `lost`. -/
  | .message c data refused =>
    match s.find c with
    | none => s
    | some x =>
      if x.action = some .publish then
        (if x.fed && !x.dropped then
          (let s := { s with consumed := s.consumed ++ [(x.seq.getD "", data)] }
           if refused then s.update c (fun x => { x with dropped := true }) else s)
        else s)
      else s.update c (fun x => { x with dropped := true })
  | .emit seq data => doWrite s seq data
  | .emitLater seq data => { s with pending := s.pending ++ [(seq, data)] }
  | .fire i =>
    match s.pending[i]? with
    | none => s
    | some (seq, data) => { doWrite s seq data with pending := s.pending.eraseIdx i }

def run (prod cons : Bool) (evs : List Ev) : Server := evs.foldl (step prod cons) {}

end Verif.Ws
