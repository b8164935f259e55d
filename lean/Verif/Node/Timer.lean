import Verif.Node.Simple

/-
The timers that drive a resequencer and a producer: `TwistedBackend.call_periodically`
(`/repo/ebu_tt_live/config/backend.py:262-269`), started by `config/node.py:149-157` and `config/node.py:247-248`.  The backend makes a Twisted
`LoopingCall`; of that library (not in `/repo`) it is assumed what its documentation says: it makes the call again and again until the
called function raises, and then never again.  Neither node gives an `error_callback`, so nothing starts it anew.
-/
namespace Verif.Node

/-- A node with its timer, and whatever its documents are handed to.  `on`: the looping call has not stopped. -/
structure Timed (σ τ : Type) where
  node : σ
  down : τ
  on : Bool := true

/-- `convert_next_segment` raises before it has a segment to hand on (consumer.py:129-148): the sequence has no clock, or the extraction
or the discarding raises. -/
def noSegment {β : Type} (ex : Seq.State → Int → Int → Option β × Seq.State) (len : Int) (s : RState) : Bool :=
  match s.cons.seq with
  | none => false
  | some none => true
  | some (some q) => (ex q s.lastEnd (s.lastEnd + len)).1.isNone

/-- One event at a resequencer with its timer (config/node.py:149-157, config/backend.py:262-269, node/consumer.py:143-151).  `down` is
`producer_carriage.emit_data`: what the segment is handed to, afterwards, and whether it returned without raising.  With the direct
carriage (carriage/direct.py:16-17) it is the `process_document` of the next node. -/
def timedR {β τ : Type} (ex : Seq.State → Int → Int → Option β × Seq.State) (down : τ → RSeg β → τ × Bool) (len : Int) (s : Timed RState τ) :
    REv → Timed RState τ × Option (RSeg β)
  | .deliver now d => ({ s with node := (reseq ex len s.node (.deliver now d)).1 }, none)
  | .tick =>
    if s.on then
      match reseq ex len s.node .tick with
      | (n, none) => ({ s with node := n, on := !noSegment ex len s.node }, none)
      | (n, some g) => ({ node := n, down := (down s.down g).1, on := (down s.down g).2 }, some g)
    else (s, none)

/-- A series of events: the segments handed on, in order. -/
def runTR {β τ : Type} (ex : Seq.State → Int → Int → Option β × Seq.State) (down : τ → RSeg β → τ × Bool) (len : Int) (s : Timed RState τ) :
    List REv → Timed RState τ × List (RSeg β)
  | [] => (s, [])
  | e :: es =>
    let r := timedR ex down len s e
    let rs := runTR ex down len r.1 es
    (rs.1, r.2.toList ++ rs.2)

/-- A producer with its timer, asked for a document at reference time `now` (config/node.py:247-248, config/backend.py:262-269,
node/base.py:67-68, node/producer.py:61-113). -/
def timedP {τ : Type} (rd : Time.Reader) (down : τ → Produced → τ × Bool) (now : Int) (s : Timed PState τ) : Timed PState τ × Option Produced :=
  if s.on then
    match produce rd now s.node with
    | (n, none) => ({ s with node := n, on := false }, none)
    | (n, some p) => ({ node := n, down := (down s.down p).1, on := (down s.down p).2 }, some p)
  else (s, none)

/-- The times at which the timer runs out, and the documents handed on. -/
def runTP {τ : Type} (rd : Time.Reader) (down : τ → Produced → τ × Bool) (s : Timed PState τ) : List Int → Timed PState τ × List Produced
  | [] => (s, [])
  | t :: ts =>
    let r := timedP rd down t s
    let rs := runTP rd down r.1 ts
    (rs.1, r.2.toList ++ rs.2)

/-- The first `n` items of `itertools.cycle(l)` (config/node.py:227), rounds included that were begun: at least `n` for `l` not empty. -/
def rounds {α : Type} (n : Nat) (l : List α) : List α := (List.replicate n l).flatten

end Verif.Node
