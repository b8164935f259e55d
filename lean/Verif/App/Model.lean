import Verif.Adapt.Model

/-!
# Putting an application together

The configured nodes and the carriages between them (`/repo/ebu_tt_live/config/`): carriages in memory,
websocket servers, and finding a node again.
-/
namespace Verif.App

/-! ### Carriages in memory -/

/-- The carriage of an input or output: in memory with its id (config/carriage.py:13-46), or anything else. -/
inductive End where
  | direct (id : String)
  | other
deriving DecidableEq, Repr

/-- A configured node: what it reads and what it writes (config/node.py:15-337), if it does. -/
structure NodeCfg where
  input : Option End
  output : Option End
deriving DecidableEq, Repr

/-- `DirectCarriageImpl`: the registered `consumer_node` (carriage/base.py:51-75), by its number.  The registered
producer node is only asked for more data and left out. -/
structure Carriage where
  consumer : Option Nat
deriving DecidableEq, Repr

/-- `DirectCommon._components` (config/carriage.py:17), shared by inputs and outputs. -/
abbrev Wires := List (String × Carriage)

def Wires.find (w : Wires) (id : String) : Option Carriage := (w.find? (fun p => p.1 = id)).map (·.2)

/-- `DirectCommon.configure_component` (config/carriage.py:27-38): the carriage of an id, made if there is none
yet. -/
def Wires.touch (w : Wires) (id : String) : Wires :=
  match w.find id with
  | some _ => w
  | none => w ++ [(id, ⟨none⟩)]

/-- `register_consumer_node` (carriage/base.py:55-71), through the node's adapter
(adapters/node_carriage.py:146-148): the one registered before is replaced. -/
def Wires.register (w : Wires) (id : String) (n : Nat) : Wires :=
  w.map (fun p => if p.1 = id then (id, ⟨some n⟩) else p)

/-- `_create_input` (config/node.py:57-67) of node `n`. -/
def wireInput (w : Wires) (n : Nat) : Option End → Wires
  | some (.direct id) => (w.touch id).register id n
  | _ => w

/-- `_create_output` (config/node.py:32-42). -/
def wireOutput (w : Wires) : Option End → Wires
  | some (.direct id) => w.touch id
  | _ => w

/-- The nodes are configured in order (config/node.py:381-398), each with its input first. -/
def wireFrom (w : Wires) (n : Nat) : List NodeCfg → Wires
  | [] => w
  | c :: cs => wireFrom (wireOutput (wireInput w n c.input) c.output) (n + 1) cs

def wire (cfg : List NodeCfg) : Wires := wireFrom [] 0 cfg

/-! ### Data in an application -/

/-- What a node emits goes: out of the application or to a carriage in memory nobody reads, or to a node. -/
inductive Next where
  | out
  | nobody
  | node (n : Nat)
deriving DecidableEq, Repr

/-- Where node `n` emits to: `emit_data` of `DirectCarriageImpl` (carriage/direct.py:16-17) hands over to the
registered consumer. -/
def nextOf (cfg : List NodeCfg) (n : Nat) : Next :=
  match cfg[n]?.bind (·.output) with
  | some (.direct id) =>
    match ((wire cfg).find id).bind (·.consumer) with
    | some m => .node m
    | none => .nobody
  | _ => .out

/-- Exceptions while data is handed on. -/
inductive Err (ε : Type) where
  /-- `AttributeError`: nobody reads the carriage -/
  | nobody
  /-- `RuntimeError`: maximum recursion depth exceeded -/
  | recursion
  /-- an exception of a node -/
  | node (e : ε)
deriving DecidableEq, Repr

/-- The data a node emits one after another. -/
def inTurn {α β ε : Type} (f : α → Except ε (List β)) : List α → Except ε (List β)
  | [] => .ok []
  | y :: ys =>
    match f y with
    | .error e => .error e
    | .ok l =>
      match inTurn f ys with
      | .error e => .error e
      | .ok l' => .ok (l ++ l')

/-- Node `n` emits a datum: everything that happens before `emit_data` returns (adapters/node_carriage.py:113-116,
:171-174, carriage/direct.py:16-17), as the list of what leaves the application, at which node.  `beh m x` is
what node `m` emits when handed `x`, conversions included.  `depth` is the number of nested calls that are
possible. -/
def emit {α ε : Type} (cfg : List NodeCfg) (beh : Nat → α → Except ε (List α)) :
    Nat → Nat → α → Except (Err ε) (List (Nat × α))
  | 0, _, _ => .error .recursion
  | depth + 1, n, x =>
    match nextOf cfg n with
    | .out => .ok [(n, x)]
    | .nobody => .error .nobody
    | .node m =>
      match beh m x with
      | .error e => .error (.node e)
      | .ok ys => inTurn (emit cfg beh depth m) ys

/-! ### Websocket servers -/

/-- A component to start: a websocket output or input with the address it listens on and those it connects to
(config/carriage.py:204-243), a legacy output or input (:147-183), or one that has nothing to do with
addresses. -/
inductive Comp where
  | wsOut (id : Nat) (listen : Option String) (connect : List String)
  | wsIn (id : Nat) (listen : Option String) (connect : List String)
  | legacyOut (id : Nat) (uri : String)
  | legacyIn (id : Nat) (uri : String)
  | other
deriving DecidableEq, Repr

/-- A server: `BroadcastServerFactory` with its producer and consumer (twisted/websocket.py:265-306), given by
the component that registered with it. -/
structure Server where
  producer : Option Nat
  consumer : Option Nat
deriving DecidableEq, Repr

/-- A connection to be made: the address, and who sends and who receives on it
(config/backend.py:138-150). -/
structure Client where
  url : String
  producer : Option Nat
  consumer : Option Nat
deriving DecidableEq, Repr

/-- `TwistedBackend`: `_ws_twisted_servers` (config/backend.py:83) and the clients.  `_wsl_twisted_servers` stays
empty, as no legacy server can be made. -/
structure Backend where
  servers : List (String × Server)
  clients : List Client
deriving DecidableEq, Repr

/-- Exceptions at the start. -/
inductive StartErr where
  /-- `ValueError` of the `producer` or `consumer` setter (twisted/websocket.py:273-296) -/
  | taken
  /-- `TypeError`: `TwistedPullProducer` is made without its `consumer` (config/backend.py:225-227,
  twisted/websocket.py:429) -/
  | legacy
  /-- `ConfigurationError`: an address of the other protocol (config/backend.py:115-120) -/
  | mismatch
deriving DecidableEq, Repr

def Backend.server (b : Backend) (url : String) : Option Server := (b.servers.find? (fun p => p.1 = url)).map (·.2)

def Backend.setServer (b : Backend) (url : String) (s : Server) : Backend :=
  { b with servers := b.servers.map (fun p => if p.1 = url then (url, s) else p) }

/-- The part of `ws_backend_producer` (config/backend.py:152-193) about the listening address. -/
def listenOut (b : Backend) (id : Nat) : Option String → Except StartErr Backend
  | none => .ok b
  | some url =>
    match b.server url with
    | none => .ok { b with servers := b.servers ++ [(url, ⟨some id, none⟩)] }
    | some s =>
      match s.producer with
      | some _ => .error .taken
      | none => .ok (b.setServer url { s with producer := some id })

/-- The same for `ws_backend_consumer` (config/backend.py:195-220). -/
def listenIn (b : Backend) (id : Nat) : Option String → Except StartErr Backend
  | none => .ok b
  | some url =>
    match b.server url with
    | none => .ok { b with servers := b.servers ++ [(url, ⟨none, some id⟩)] }
    | some s =>
      match s.consumer with
      | some _ => .error .taken
      | none => .ok (b.setServer url { s with consumer := some id })

/-- `start()` of a component (config/carriage.py:162-163, :182-183, :216-222, :237-243) with
`_ws_create_client_factories` (config/backend.py:138-150) and the legacy calls (:222-253).  Whether an address
can be listened on or connected to is not modelled. -/
def startOne (b : Backend) : Comp → Except StartErr Backend
  | .wsOut id listen connect =>
    (listenOut b id listen).map (fun b => { b with clients := b.clients ++ connect.map (fun u => ⟨u, some id, none⟩) })
  | .wsIn id listen connect =>
    (listenIn b id listen).map (fun b => { b with clients := b.clients ++ connect.map (fun u => ⟨u, none, some id⟩) })
  | .legacyOut _ uri => if (b.server uri).isSome = true then .error .mismatch else .error .legacy
  | .legacyIn id uri => .ok { b with clients := b.clients ++ [⟨uri, none, some id⟩] }
  | .other => .ok b

/-- `BackendBase.start` (config/backend.py:24-29): the components are kept in a set, so the order is any. -/
def startAll (b : Backend) : List Comp → Except StartErr Backend
  | [] => .ok b
  | c :: cs =>
    match startOne b c with
    | .error e => .error e
    | .ok b' => startAll b' cs

/-! ### Finding a node -/

/-- `UniversalNodeList.configure_component` (config/node.py:381-398): the nodes of those of `node1` to `node7`
that are configured. -/
def nodeList {α : Type} (slots : List (Option α)) : List α := slots.filterMap id

/-- `l[i]` of a Python list. -/
def pyIndex {α : Type} (l : List α) (i : Int) : Option α :=
  if 0 ≤ i then l[i.toNat]?
  else if 0 ≤ (l.length : Int) + i then l[((l.length : Int) + i).toNat]? else none

/-- `AppConfig.get_node` (config/__init__.py:68-71) of `"node<k>"`; `none` is `IndexError`. -/
def getNode {α : Type} (slots : List (Option α)) (k : Nat) : Option α := pyIndex (nodeList slots) ((k : Int) - 1)

/-! ### Templates -/

/-- The shortest `.*?[*]{2}` at the start of a text (config/common.py:9): what comes before the asterisks, and
the rest.  A dot matches no line break. -/
def upToStars : List Char → Option (List Char × List Char)
  | '*' :: '*' :: rest => some ([], rest)
  | c :: rest => if c = '\n' then none else (upToStars rest).map (fun r => (c :: r.1, r.2))
  | [] => none

/-- `matchobj.group(0).replace(u'**', u'')` (config/common.py:58). -/
def dropStars : List Char → List Char
  | '*' :: '*' :: rest => dropStars rest
  | c :: rest => c :: dropStars rest
  | [] => []

/-- `resolve_runtime_variables` (config/common.py:71-76): `re.sub`, with `value` for what
`_resolve_runtime_variable_match` (:55-69) finds; `none` if it raises. -/
def resolve (value : List Char → Option (List Char)) : Nat → List Char → Option (List Char)
  | 0, s => some s
  | _ + 1, [] => some []
  | fuel + 1, '*' :: '*' :: rest =>
    match upToStars rest with
    | some (v, rest') =>
      match value (dropStars ('*' :: '*' :: v ++ ['*', '*'])) with
      | none => none
      | some r => (resolve value fuel rest').map (r ++ ·)
    | none => (resolve value fuel ('*' :: rest)).map ('*' :: ·)
  | fuel + 1, c :: rest => (resolve value fuel rest).map (c :: ·)

end Verif.App
