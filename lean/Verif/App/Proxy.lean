/-
The proxy of a websocket input or output: `parse_proxy_address` (`/repo/ebu_tt_live/config/carriage.py:128-145`), the configured components that take one
(config/carriage.py:166-243) and where it ends up (config/backend.py:138-150, :238-253).
-/
namespace Verif.App

/-- A proxy as read: its host and port. -/
structure Proxy where
  host : List Char
  port : Nat
deriving DecidableEq, Repr

/-- `int(…)` of ASCII digits (config/carriage.py:136). -/
def portOf (ds : List Char) : Nat := ds.foldl (fun n c => 10 * n + (c.toNat - 48)) 0

/-- The end of `proxy_regex`, from `host` on (config/carriage.py:128): `(?P<host>[^:]+?):(?P<port>[0-9]+)$`.  The host is followed by a
colon and has none, so it ends at the first one; `$` also matches before a newline at the end. -/
def hostPort (s : List Char) : Option Proxy :=
  match s.span (fun c => c != ':') with
  | (h, ':' :: r) =>
    match r.span (fun c => c.isDigit) with
    | (ds, e) => if h ≠ [] ∧ ds ≠ [] ∧ (e = [] ∨ e = ['\n']) then some ⟨h, portOf ds⟩ else none
  | _ => none

/-- `((?P<protocol>.+?)://)` at the beginning, tried with longer and longer protocols, and the rest after it (config/carriage.py:128).
`begun`: the protocol has a character already.  A dot does not match a newline. -/
def afterProtocol (begun : Bool) : List Char → Option Proxy
  | [] => none
  | c :: r =>
    let here := if begun then (match c :: r with | ':' :: '/' :: '/' :: t => hostPort t | _ => none) else none
    match here with
    | some p => some p
    | none => if c = '\n' then none else afterProtocol true r

/-- `parse_proxy_address` (config/carriage.py:131-145) of a text; `error`: `ConfigurationError`. -/
def parseProxy (v : List Char) : Except Unit (Option Proxy) :=
  match afterProtocol false v with
  | some p => .ok (some p)
  | none =>
    match hostPort v with
    | some p => .ok (some p)
    | none => if v = [] then .ok none else .error ()

/-- A configured component that connects to somewhere, with the text of its proxy if there is one: a websocket input or output
(config/carriage.py:186-243), or a legacy input (:166-183).  Addresses to listen on need no proxy. -/
inductive Linked where
  | ws (connect : List String) (proxy : Option (List Char))
  | legacyIn (uri : String) (proxy : Option (List Char))
deriving DecidableEq, Repr

/-- The proxy setting of a component.  Without one the converter is not called and the default `None` stands. -/
def proxyOf : Option (List Char) → Except Unit (Option Proxy)
  | none => .ok none
  | some v => parseProxy v

/-- The connections a component makes, each with the proxy it is made through: `client_factory.proxy = proxy` for every address
(config/backend.py:138-150); `WebsocketLegacyInput.start` (config/carriage.py:182-183) does not hand its proxy on. -/
def linksOf : Linked → Except Unit (List (String × Option Proxy))
  | .ws connect proxy => (proxyOf proxy).map (fun p => connect.map (fun u => (u, p)))
  | .legacyIn uri proxy => (proxyOf proxy).map (fun _ => [(uri, none)])

/-- All components of an application: the configuration is read before anything is started. -/
def links : List Linked → Except Unit (List (String × Option Proxy))
  | [] => .ok []
  | c :: cs => do
    let l ← linksOf c
    let r ← links cs
    return l ++ r

end Verif.App
