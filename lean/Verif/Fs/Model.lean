import Verif.Time.Model

/-!
# The filesystem carriage (ebu_tt_live/carriage/filesystem.py)

What the producer writes is modelled character by character, so that a run of it can be cut at any
point.  File names are names inside the output directory: joining them with the directory
(filesystem.py:155, :257) is left out, and so is the operating system's own idea of a legal name.
The manifest's own name is left out too: it is fixed by the first document that gets a line
(filesystem.py:192-195), so there is one manifest in a run.
-/
namespace Verif.Fs
open Verif.Time

abbrev Text := List Char

/-! ### Manifest times -/

/-- `timedelta_to_str_manifest` (filesystem.py:17-22); the arithmetic is that of `_get_time_members`. -/
def fmtTime (t : Int) : Text :=
  fmtInt 2 (members t).1 ++ ':' :: (fmtInt 2 (members t).2.1 ++ ':' ::
    (fmtInt 2 (members t).2.2.1 ++ '.' :: fmtInt 3 (members t).2.2.2))

/-- `str.split(c)` for a one character separator. -/
def splitOn (c : Char) : Text → List Text
  | [] => [[]]
  | x :: xs =>
    if x = c then [] :: splitOn c xs
    else match splitOn c xs with
      | [] => [[x]]
      | l :: ls => (x :: l) :: ls

/-- `int(text)`: an optional sign and digits, `none` standing for `ValueError`.  Blanks around the
number, which Python allows, are refused here. -/
def readInt : Text → Option Int
  | [] => none
  | c :: cs =>
    if c = '-' then (if cs ≠ [] ∧ cs.all isDig = true then some (-(value cs : Int)) else none)
    else if c = '+' then (if cs ≠ [] ∧ cs.all isDig = true then some (value cs : Int) else none)
    else if (c :: cs).all isDig = true then some (value (c :: cs) : Int) else none

/-- `timestr_manifest_to_timedelta` (filesystem.py:25-28), in microseconds; `none` is `ValueError`. -/
def readTime (l : Text) : Option Int :=
  match splitOn ':' l with
  | [h, m, r] =>
    match splitOn '.' r with
    | [s, ms] => do
      let h ← readInt h
      let m ← readInt m
      let s ← readInt s
      let ms ← readInt ms
      some (h * 3600000000 + m * 60000000 + s * 1000000 + ms * 1000)
    | _ => none
  | _ => none

/-! ### The producer -/

/-- What `emit_data` (filesystem.py:132-133) is called with.  `avail` is the availability time after
`check_availability_time` (filesystem.py:99-123), i.e. the one given or the default clock's reading,
`none` when there is neither; `delay` is in microseconds. -/
structure Out where
  seq : Text
  num : Option Nat
  data : Text
  avail : Option Int
  delay : Option Int
deriving DecidableEq

/-- One write of the producer: the file, its content and the time of the manifest line, if any. -/
structure Emission where
  name : Text
  data : Text
  time : Option Int
deriving DecidableEq

/-- `CFG_FILENAME_PATTERN` (strings.py:61). -/
def docName (s : Text) (n : Nat) : Text := s ++ '_' :: (digs n ++ ".xml".toList)

/-- `CFG_MESSAGE_PATTERN` (strings.py:62). -/
def msgName (s : Text) (n : Nat) : Text := s ++ "_msg_".toList ++ digs n ++ ".xml".toList

/-- `if delay is not None: availability_time += timedelta(seconds=delay)` (filesystem.py:188-189). -/
def lineTime (o : Out) : Option Int :=
  o.avail.map (fun t => match o.delay with | none => t | some d => t + d)

/-- File names given by the calls of `emit_data` (filesystem.py:137-149), `k` being the message
counter (`_msg_counter`) before the first of them. -/
def emissions : Nat → List Out → List Emission
  | _, [] => []
  | k, o :: os =>
    match o.num with
    | none => ⟨msgName o.seq (k + 1), o.data, lineTime o⟩ :: emissions (k + 1) os
    | some n => ⟨docName o.seq n, o.data, lineTime o⟩ :: emissions k os

/-- `CFG_MANIFEST_LINE_PATTERN` (strings.py:64). -/
def lineOf (t : Int) (f : Text) : Text := fmtTime t ++ ',' :: (f ++ ['\n'])

/-- The smallest steps in which the output directory changes. -/
inductive Op where
  /-- `open(filepath, 'w')`: the file exists and is empty. -/
  | create (f : Text)
  /-- One more character of `destfile.write(data)` has reached the file. -/
  | put (f : Text) (c : Char)
  /-- One more character of `f.write(new_manifest_line)` has reached the manifest. -/
  | line (c : Char)
  /-- `os.remove` by the rotating buffer's thread (utils.py:142). -/
  | remove (f : Text)
deriving DecidableEq

/-- The output directory: its document files and the manifest. -/
structure Disk where
  files : Text → Option Text
  manifest : Text

/-- The empty directory. -/
def Disk.empty : Disk := ⟨fun _ => none, []⟩

def setFile (fs : Text → Option Text) (f : Text) (c : Option Text) : Text → Option Text :=
  fun g => if g = f then c else fs g

def step (d : Disk) : Op → Disk
  | .create f => { d with files := setFile d.files f (some []) }
  | .put f c => { d with files := setFile d.files f (some ((d.files f).getD [] ++ [c])) }
  | .line c => { d with manifest := d.manifest ++ [c] }
  | .remove f => { d with files := setFile d.files f none }

/-- `emit_data` (filesystem.py:156-202) as a series of steps: the document file is written, flushed
and closed before the manifest is opened; without an availability time there is no manifest line
(:175-186).  Without rotating buffer and without `suppress_manifest`. -/
def opsOf (e : Emission) : List Op :=
  .create e.name :: (e.data.map (.put e.name) ++
    (match e.time with | none => [] | some t => (lineOf t e.name).map .line))

/-- All steps of a run. -/
def opsAll (es : List Emission) : List Op := es.flatMap opsOf

def exec (d : Disk) (ops : List Op) : Disk := ops.foldl step d

/-! ### The reader -/

/-- The characters removed by `str.rstrip()`. -/
def isBlank (c : Char) : Bool :=
  c = ' ' || c = '\t' || c = '\n' || c = '\r' || c = '\x0b' || c = '\x0c'

def rstrip (l : Text) : Text := (l.reverse.dropWhile isBlank).reverse

/-- Repeated `readline()` (filesystem.py:245) until the end of the file: lines with their line end;
the last one may lack it. -/
def readLines : Text → List Text
  | [] => []
  | c :: cs =>
    if c = '\n' then [c] :: readLines cs
    else match readLines cs with
      | [] => [[c]]
      | l :: ls => (c :: l) :: ls

/-- One line in `resume_reading` (filesystem.py:256-262) and the consumer's `on_new_data`
(filesystem.py:213-218): `none` is an exception (`ValueError` or `IOError`), `some none` a file with
no content, which is skipped, and `some (some (t, x))` a document handed on. -/
def readLine (fs : Text → Option Text) (l : Text) : Option (Option (Int × Text)) :=
  match splitOn ',' (rstrip l) with
  | [ts, f] =>
    match fs f with
    | none => none
    | some x => if x = [] then some none else (readTime ts).map (fun t => some (t, x))
  | _ => none

/-- What reading some lines hands on; `none` if an exception ends it. -/
def readAll (fs : Text → Option Text) : List Text → Option (List (Int × Text))
  | [] => some []
  | l :: ls => do
    let r ← readLine fs l
    let rs ← readAll fs ls
    some (r.toList ++ rs)

/-- `resume_reading` (filesystem.py:242-262) without tailing, on a directory at rest. -/
def Disk.read (d : Disk) : Option (List (Int × Text)) := readAll d.files (readLines d.manifest)

/-! ### The rotating buffer (ebu_tt_live/utils.py:66-196) -/

/-- `written` and `removed` are kept for the statements only. `ring` is the deque, oldest first;
`queue` the deletion queue; `waiting` the thread's `files_waiting`; `alive` is false once the thread
has ended. -/
structure Rot where
  disk : List Text := []
  ring : List Text := []
  queue : List Text := []
  waiting : List Text := []
  alive : Bool := true
  written : List Text := []
  removed : List Text := []
deriving DecidableEq

inductive REv where
  /-- The producer writes a file and appends its name to the buffer (filesystem.py:156-162). -/
  | write (f : Text)
  /-- The thread takes a name from the queue (`q.get`, utils.py:152). -/
  | take
  /-- The thread removes the next waiting file (utils.py:135-142). -/
  | del
  /-- `os.remove` fails with `OSError`, which `except IOError` (utils.py:143) does not catch: the
  thread ends, and the name it had popped is gone. -/
  | die
deriving DecidableEq

/-- One step with a buffer of size `n`. `write`: `RingBufferWithCallback.append` (utils.py:80-84)
with `delete_file` as callback (utils.py:170-176). A name already on disk stays there once.
`append` on a stopped thread raises only when somebody called `stop` (utils.py:193-195), which the
carriage never does. -/
def Rot.step (n : Nat) (s : Rot) : REv → Rot
  | .write f =>
    let disk := if f ∈ s.disk then s.disk else s.disk ++ [f]
    let written := s.written ++ [f]
    match s.ring with
    | [] => { s with disk := disk, written := written, ring := [f] }
    | x :: xs =>
      if (x :: xs).length ≥ n then
        { s with disk := disk, written := written, ring := xs ++ [f], queue := s.queue ++ [x] }
      else { s with disk := disk, written := written, ring := (x :: xs) ++ [f] }
  | .take =>
    if s.alive && s.waiting.isEmpty then
      match s.queue with
      | [] => s
      | x :: q => { s with queue := q, waiting := [x] }
    else s
  | .del =>
    if s.alive then
      match s.waiting with
      | [] => s
      | x :: w => { s with waiting := w, disk := s.disk.filter (· ≠ x), removed := s.removed ++ [x] }
    else s
  | .die => { s with alive := false }

def Rot.run (n : Nat) (evs : List REv) : Rot := evs.foldl (Rot.step n) {}

end Verif.Fs
