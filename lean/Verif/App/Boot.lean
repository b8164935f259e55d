/-!
# Starting an application with a filesystem input

`BackendBase.start` and `TwistedBackend.start` (config/backend.py:24-29, :100-102): the components are started one after the other, in the order of a set, that is in any
order, and only then the reactor runs.  Starting a filesystem input (config/carriage.py:110-111) reads the whole manifest and hands all its documents on before it
returns; with `tail` it never returns.
-/
namespace Verif.App.Boot

/-- Where data leaves the application: a filesystem output or a websocket output, by number. -/
inductive Sink where
  | file (k : Nat)
  | ws (k : Nat)
deriving DecidableEq, Repr

/-- Something emitted: where, what, and whether with a `delay` (the buffer delay node, node/delay.py). -/
structure Emit (β : Type) where
  sink : Sink
  data : β
  delayed : Bool := false
deriving DecidableEq, Repr

/-- All nodes of the application and the carriages between them, as one machine: what they do when handed something from outside (a document, or a timer
call).  Nodes that raise an exception are not considered. -/
abbrev Nodes (σ ι β : Type) := σ → ι → σ × List (Emit β)

/-- A component as far as its `start()` matters here: a websocket output (config/carriage.py:216-222), a filesystem input with what its manifest lists
(:110-111), any other. -/
inductive Comp (ι : Type) where
  | wsOut (k : Nat)
  | fsIn (docs : List ι) (tail : Bool)
  | other

/-- The application. -/
structure St (σ β : Type) where
  nodes : σ
  /-- websocket outputs that have been started, so that their carriage has a `_backend_producer` -/
  started : List Nat := []
  /-- open connections: client and output -/
  conns : List (Nat × Nat) := []
  /-- calls for later: output and data -/
  later : List (Nat × β) := []
  /-- what has been written to filesystem outputs -/
  written : List (Nat × β) := []
  /-- what has been sent to clients -/
  received : List (Nat × β) := []
  /-- the reactor runs -/
  running : Bool := false
  /-- inside the `start()` of a tailing input -/
  stuck : Bool := false

variable {σ ι β : Type}

/-- `_do_write` (twisted/websocket.py:172-178): to every connection of the output. -/
def send (s : St σ β) (k : Nat) (x : β) : St σ β :=
  { s with received := s.received ++ (s.conns.filter (·.2 = k)).map (fun c => (c.1, x)) }

/-- `emit_data` of the carriages: a file is written at once (filesystem.py:156-202; its delay only goes into the manifest); a websocket output that has not been
started drops the data (carriage/websocket.py:22-24); otherwise it is sent now or, with a delay, later (twisted/websocket.py:158-164). -/
def emitOne (s : St σ β) (e : Emit β) : St σ β :=
  match e.sink with
  | .file k => { s with written := s.written ++ [(k, e.data)] }
  | .ws k =>
    if k ∈ s.started then
      if e.delayed then { s with later := s.later ++ [(k, e.data)] } else send s k e.data
    else s

/-- Something is handed to the nodes; everything they emit leaves before the call returns. -/
def feed (m : Nodes σ ι β) (s : St σ β) (x : ι) : St σ β :=
  (m s.nodes x).2.foldl emitOne { s with nodes := (m s.nodes x).1 }

/-- `BackendBase.start` and `TwistedBackend.start` (config/backend.py:24-29, :100-102) with the components in the order given. -/
def boot (m : Nodes σ ι β) (s : St σ β) : List (Comp ι) → St σ β
  | [] => { s with running := true }
  | .wsOut k :: cs => boot m { s with started := s.started ++ [k] } cs
  | .fsIn docs tail :: cs =>
    let s' := docs.foldl (feed m) s
    if tail then { s' with stuck := true } else boot m s' cs
  | .other :: cs => boot m s cs

/-- What can happen afterwards. -/
inductive Ev (ι : Type) where
  /-- a client connects to a websocket output, or the output to a client: the reactor's work -/
  | connect (client k : Nat)
  | disconnect (client k : Nat)
  /-- something arrives at another input, or a timer calls a node: the reactor's work -/
  | input (x : ι)
  /-- a call for later is due: the reactor's work.  In any order: the times are left out. -/
  | fire (i : Nat)
  /-- a line is appended to the manifest that is followed (filesystem.py:245-262) -/
  | line (x : ι)

/-- One of them. -/
def evStep (m : Nodes σ ι β) (s : St σ β) : Ev ι → St σ β
  | .connect c k => if s.running ∧ k ∈ s.started then { s with conns := s.conns ++ [(c, k)] } else s
  | .disconnect c k => if s.running then { s with conns := s.conns.filter (· ≠ (c, k)) } else s
  | .input x => if s.running then feed m s x else s
  | .fire i =>
    if s.running then
      match s.later[i]? with
      | some (k, x) => send { s with later := s.later.eraseIdx i } k x
      | none => s
    else s
  | .line x => if s.stuck then feed m s x else s

/-- A run: start, then events. -/
def runApp (m : Nodes σ ι β) (n0 : σ) (cs : List (Comp ι)) (evs : List (Ev ι)) : St σ β :=
  evs.foldl (evStep m) (boot m { nodes := n0 } cs)

end Verif.App.Boot
