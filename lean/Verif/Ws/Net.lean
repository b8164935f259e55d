import Verif.Ws.Props

/-!
# Websocket clients and their connections to a server (ebu_tt_live/twisted/websocket.py:345-418)

A server as in `Verif/Ws/Model.lean` and any number of client connections (`BroadcastClientProtocol`, one
`BroadcastClientFactory` for each URL, config/backend.py:138-150).  Each connection carries messages in both
directions, each direction in order; it can be lost at any time, and each end notices that by itself.  What is
on its way when an end is gone does not arrive.  Both ends read the path of the same URL (websocket.py:101-106,
219-224, 347-349).  Clients that share a producer are told so by the number of the producer.
-/
namespace Verif.Ws

/-- What a `BroadcastClientFactory` is made with (websocket.py:391-394): the path of its URL, its producer (by number) and whether it
has a consumer. -/
structure Setup where
  path : List String
  producer : Option Nat
  consumer : Bool
deriving DecidableEq, Repr

/-- The client's end of a connection.  `said` is what it has sent, `heard` how much of that has reached the server, `taken` how much
of what the server sent on this connection has reached the client. -/
structure Client where
  isOpen : Bool := false
  seq : Option String := none
  action : Option Action := none
  /-- `connection.consumer` is set (websocket.py:201-205) -/
  fed : Bool := false
  /-- it is one of the producer's `_connections` (websocket.py:166-170) -/
  listed : Bool := false
  /-- dropped by the client itself, or lost -/
  dropped : Bool := false
  said : List String := []
  heard : Nat := 0
  taken : Nat := 0
deriving DecidableEq, Repr

/-- What can happen.  `refused` is as in `Ev.message`, `clientFire` as `Ev.fire`. -/
inductive NEv where
  /-- the server's end is opened -/
  | connect (c : Nat)
  /-- the answer of the server reaches the client, whose end is opened -/
  | accepted (c : Nat)
  /-- the server notices that the connection is lost -/
  | lost (c : Nat)
  /-- the client notices -/
  | clientLost (c : Nat)
  | emit (seq data : String)
  | emitLater (seq data : String)
  | fire (i : Nat)
  | clientEmit (p : Nat) (seq data : String)
  | clientEmitLater (p : Nat) (seq data : String)
  | clientFire (i : Nat)
  /-- the next message of the server on this connection reaches the client -/
  | deliver (c : Nat) (refused : Bool)
  /-- the next message of the client reaches the server -/
  | upload (c : Nat) (refused : Bool)
deriving DecidableEq, Repr

/-- `got` are the data handed to the consumers of the clients, each with the connection and the sequence identifier it was handed with;
`waiting` are the delayed writes of the clients' producers. -/
structure Net where
  server : Server := {}
  client : Nat → Client := fun _ => {}
  got : List (Nat × String × String) := []
  waiting : List (Nat × String × String) := []

/-- What the server has sent on a connection. -/
def Server.sentTo (s : Server) (c : Nat) : List String := (s.sent.filter (·.1 = c)).map (·.2)

def Net.change (n : Net) (c : Nat) (f : Client → Client) : Net :=
  { n with client := fun c' => if c' = c then f (n.client c') else n.client c' }

/-- `BroadcastClientProtocol.onOpen` (websocket.py:347-357) and `BroadcastClientFactory.register` (:396-408).  A path of not exactly two
segments, or an unknown action, drops the connection; it is then registered all the same, which does nothing without an action. -/
def clientOpen (u : Setup) (x : Client) : Client :=
  match parsePath u.path with
  | (seq, none) => { x with isOpen := true, seq := seq, dropped := true }
  | (seq, some .subscribe) =>
    { x with isOpen := true, seq := seq, action := some .subscribe, fed := u.consumer, dropped := !u.consumer }
  | (seq, some .publish) =>
    { x with isOpen := true, seq := seq, action := some .publish, listed := u.producer.isSome, dropped := !u.producer.isSome }

/-- `connectionLost` (websocket.py:384-386) and `unregister` (:410-414). -/
def clientGone (u : Setup) (x : Client) : Client :=
  { x with
    dropped := true
    fed := if x.action = some .subscribe ∧ u.consumer = true then false else x.fed
    listed := if x.action = some .publish ∧ u.producer.isSome = true then false else x.listed }

/-- `sendSequenceMessage` (websocket.py:368-382) and `_send_sequence_message` (:113-125) on one connection. -/
def clientSend (seq data : String) (x : Client) : Client :=
  if x.action = some .publish then
    (if x.seq = some seq ∧ x.dropped = false then { x with said := x.said ++ [data] } else x)
  else { x with dropped := true }

/-- `_do_write` (websocket.py:172-178) of a producer of clients. -/
def clientWrite (setup : Nat → Setup) (p : Nat) (seq data : String) (n : Net) : Net :=
  { n with client := fun c => if (n.client c).listed = true ∧ (setup c).producer = some p then clientSend seq data (n.client c) else n.client c }

/-- `onMessage` (websocket.py:359-366) with the data `d`.  Without consumer there is an `AttributeError` (not reached: see the proofs). -/
def clientHears (c : Nat) (d : String) (refused : Bool) (n : Net) : Net :=
  let x := n.client c
  let n := n.change c (fun x => { x with taken := x.taken + 1 })
  if x.action = some .subscribe then
    (if x.fed then
      { n.change c (fun x => { x with dropped := x.dropped || refused }) with got := n.got ++ [(c, x.seq.getD "", d)] }
    else n)
  else n

/-- What the server sees of an event. -/
def serverEv (setup : Nat → Setup) (n : Net) : NEv → Option Ev
  | .connect c => some (.opened c (setup c).path)
  | .lost c => some (.lost c)
  | .emit s d => some (.emit s d)
  | .emitLater s d => some (.emitLater s d)
  | .fire i => some (.fire i)
  | .upload c refused => ((n.client c).said[(n.client c).heard]?).map (fun d => .message c d refused)
  | _ => none

/-- What an event does to the clients. -/
def clientStep (setup : Nat → Setup) (n : Net) : NEv → Net
  /- the server answers before the client is open -/
  | .accepted c =>
    if (n.server.find c).isSome ∧ (n.client c).isOpen = false then n.change c (clientOpen (setup c)) else n
  | .clientLost c => if (n.client c).isOpen = true then n.change c (clientGone (setup c)) else n
  | .clientEmit p s d => clientWrite setup p s d n
  | .clientEmitLater p s d => { n with waiting := n.waiting ++ [(p, s, d)] }
  | .clientFire i =>
    match n.waiting[i]? with
    | none => n
    | some (p, s, d) => { clientWrite setup p s d n with waiting := n.waiting.eraseIdx i }
  | .deliver c refused =>
    if (n.client c).isOpen = true ∧ (n.client c).dropped = false then
      match (n.server.sentTo c)[(n.client c).taken]? with
      | none => n
      | some d => clientHears c d refused n
    else n
  | .upload c _ => if (n.client c).heard < (n.client c).said.length then n.change c (fun x => { x with heard := x.heard + 1 }) else n
  | _ => n

/-- One event, with a server with (`prod`) or without producer and with (`cons`) or without consumer. -/
def netStep (prod cons : Bool) (setup : Nat → Setup) (n : Net) (e : NEv) : Net :=
  { clientStep setup n e with
    server := match serverEv setup n e with
      | none => n.server
      | some ev => step prod cons n.server ev }

def netRun (prod cons : Bool) (setup : Nat → Setup) (evs : List NEv) : Net := evs.foldl (netStep prod cons setup) {}

end Verif.Ws
