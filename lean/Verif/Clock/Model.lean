import Verif.Node.Simple
import Verif.Tt.Model

/-
Clocks (`/repo/ebu_tt_live/clocks`), the clocks of the file producer (`carriage/filesystem.py:89-123, 132-202`) and the
clocks that nodes get from a configuration (`config/clocks.py`, `config/node.py`).  Times are microseconds.

An instant is the number of microseconds since some midnight UTC.  Simplification: the machine's clock is not set while the
program runs and its zone does not change (no change to or from summer time), so that a machine's time is the instant plus
its `zone`.
-/
namespace Verif.Clocks

open Verif.Node (Ref)
open Verif.Tt (Base Text)

/-! ### Reading a clock -/

/-- The length of a day. -/
def day : Int := 86400000000

/-- `timedelta(hours=now.hour, minutes=now.minute, seconds=now.second, microseconds=now.microsecond)` of
`datetime.now().time()` (clocks/local.py:11-12, utc.py:11-12, media.py:23-25); `t` is the instant in the zone. -/
def timeOfDay (t : Int) : Int :=
  t / 3600000000 % 24 * 3600000000 + t / 60000000 % 60 * 60000000 + t / 1000000 % 60 * 1000000 + t % 1000000

/-- `LocalMachineClock`, `UTCClock` and `MediaClock` with its `_reference_mapping`; an `SMPTEClock` differs from a
`MediaClock` in its time base only (clocks/media.py:48-53). -/
inductive Kind where
  | loc
  | utc
  | media (ref : Ref)

/-- A clock: `_fixed_time` and `_use_fixed_time` (clocks/base.py:15-16). -/
structure Clock where
  kind : Kind
  fixed : Option Int := none
  useFixed : Bool := false

/-- `get_real_clock_time` (clocks/local.py:10-12, utc.py:10-12, media.py:30-31). -/
def Kind.real (zone now : Int) : Kind → Int
  | .loc => timeOfDay (now + zone)
  | .utc => timeOfDay now
  | .media r => r.remote + (timeOfDay (now + zone) - r.loc)

/-- `Clock.get_time` (clocks/base.py:18-25); `none` is Python's `None`. -/
def Clock.time (zone now : Int) (c : Clock) : Option Int :=
  if c.useFixed = true then c.fixed else some (c.kind.real zone now)

/-! ### Setting a clock -/

/-- A value handed to one of the methods. -/
inductive Arg where
  | time (t : Int)
  | bool (b : Bool)
  | none
  | other
deriving DecidableEq

/-- What can be called. -/
inductive Op where
  /-- `set_fixed_time` (clocks/base.py:49-59) -/
  | fix (a : Arg)
  /-- `set_fixed_time_mode` (clocks/base.py:61-73) -/
  | mode (a : Arg)
  /-- `adjust_time` of a media clock (clocks/media.py:33-44) -/
  | adjust (current loc : Arg)

inductive Err where
  | typeError
  | timeFormatError
  /-- the clock has no such method -/
  | attributeError
deriving DecidableEq

/-- One call at an instant: the clock afterwards, or the exception. -/
def Clock.call (zone now : Int) (c : Clock) : Op → Except Err Clock
  | .fix (.time t) => .ok { c with fixed := some t }
  | .fix _ => .error .typeError
  | .mode (.bool b) => .ok { c with useFixed := b }
  | .mode _ => .error .typeError
  | .adjust cur loc =>
    match c.kind with
    | .media _ =>
      match cur, loc with
      | .time t, .none => .ok { c with kind := .media ⟨timeOfDay (now + zone), t⟩ }
      | .time t, .time l => .ok { c with kind := .media ⟨l, t⟩ }
      | _, _ => .error .timeFormatError
    | _ => .error .attributeError

/-- The clock after a call, whether or not it raised. -/
def Clock.after (zone : Int) (c : Clock) (x : Int × Op) : Clock :=
  match c.call zone x.1 x.2 with
  | .ok c' => c'
  | .error _ => c

/-- A series of calls with their instants. -/
def Clock.run (zone : Int) (c : Clock) (xs : List (Int × Op)) : Clock := xs.foldl (Clock.after zone) c

/-- `MediaClock()` (clocks/media.py:19-20). -/
def newMedia (zone now : Int) : Clock := { kind := .media ⟨timeOfDay (now + zone), 0⟩ }

/-- `get_clock` (clocks/__init__.py:10-22): the clock, made at the instant `now`. -/
def newClock (zone now : Int) : Option Base → Option Text → Option Clock
  | some .clock, mode =>
    if mode = some "local".toList then some { kind := .loc }
    else if mode = some "utc".toList then some { kind := .utc }
    else none
  | some .media, _ => some (newMedia zone now)
  | some .smpte, _ => some (newMedia zone now)
  | none, _ => none

/-! ### The clocks of the file producer -/

/-- What the file producer is told of the time of a document or message (carriage/filesystem.py:132-133); a time base of
`none` is that of messages. -/
structure Told where
  seq : Text
  base : Option Base := none
  mode : Option Text := none
  avail : Option Int := none

/-- `_default_clocks`: the clocks used for sequences without availability times, by sequence identifier. -/
abbrev Defaults := List (Text × Clock)

def Defaults.get (cs : Defaults) (s : Text) : Option Clock := (cs.find? (fun p => decide (p.1 = s))).map (·.2)

/-- `_get_default_clock` (carriage/filesystem.py:89-97). -/
def defaultClock (zone now : Int) (cs : Defaults) (x : Told) : Defaults × Option Clock :=
  match cs.get x.seq with
  | some c => (cs, some c)
  | none =>
    match newClock zone now x.base x.mode with
    | some c => ((x.seq, c) :: cs, some c)
    | none => (cs, none)

/-- `check_availability_time` (carriage/filesystem.py:99-123). -/
def checkAvail (zone now : Int) (cs : Defaults) (x : Told) : Defaults × Option Int :=
  match x.avail with
  | some t => (cs, some t)
  | none =>
    let r := defaultClock zone now cs x
    (r.1, r.2.map (fun c => c.kind.real zone now))

/-- A series of emissions with their instants: the availability times used. -/
def avails (zone : Int) (cs : Defaults) : List (Int × Told) → List (Option Int)
  | [] => []
  | (now, x) :: xs =>
    let r := checkAvail zone now cs x
    r.2 :: avails zone r.1 xs

/-- `manifest_filename` (carriage/filesystem.py:192-195): the sequence identifier in the name of the manifest, that of the first
emission that got a time; `p` is the identifier in `_manifest_path`, if it is set. -/
def manifestSeq (p : Option Text) : List (Told × Option Int) → List (Option Text)
  | [] => []
  | (_, none) :: xs => none :: manifestSeq p xs
  | (x, some _) :: xs => some (p.getD x.seq) :: manifestSeq (some (p.getD x.seq)) xs

end Verif.Clocks
