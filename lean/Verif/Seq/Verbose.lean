import Verif.Seq.Reach
import Verif.Seq.Print

/-
Model of a sequence that logs the contents of its documents (`verbose=True`, ebutt3.py:593-603): `add_document` with the
calls of `content_to_string` in the places where they are made, and what is left behind if one of them raises.
-/
namespace Verif.Seq

/-- The paragraphs of each document, as `Verif.Seq.Doc` does not have them. -/
abbrev Bodies := Doc → List Print.Para

/-- Why writing a document to the log raises. -/
inductive LogErr where
  /-- a resolved time cannot be found: `LookupError`, `KeyError` -/
  | lookupError
  /-- a paragraph cannot be written out: `AttributeError` -/
  | attributeError
  deriving DecidableEq, Repr

/-- `document.content_to_string(end=e)` (ebutt3.py:447-482): the resolved times are looked up (:461-472), then the paragraphs are
written out.  `none`: nothing raises. -/
def logs (bodies : Bodies) (s : State) (d : Doc) (e : Option Int) : Option LogErr :=
  match resolvedBegin s d, resolvedEnd s d with
  | some rb, some re => if (Print.content (bodies d) rb re e).isSome then none else some .attributeError
  | _, _ => some .lookupError

/-- How `add_document` of a logging sequence ends. -/
inductive VOutcome where
  /-- as without logging -/
  | quiet (o : Outcome)
  /-- an exception from writing the log -/
  | log (e : LogErr)
  deriving DecidableEq, Repr

/-- Result of `_insert_or_discard` of a logging sequence: the state it leaves and how it ended; `done` is the normal return. -/
inductive VIns where
  | discarded (by' : Doc)
  | overridden
  | valueError
  | typeError
  | log (e : LogErr)
  | done
  deriving DecidableEq, Repr

/-- `_insert_document` (ebutt3.py:813-839): the log line comes last. -/
def insertDocumentV (bodies : Bodies) (s : State) (d : Doc) (e : Option Int) : State × VIns :=
  let s := { s with docs := insertDoc d s.docs, timeline := insertOnTimeline s.timeline d e }
  match logs bodies s d none with
  | some err => (s, .log err)
  | none => (s, .done)

/-- `_insert_or_discard` (ebutt3.py:717-811): the trimmed document is logged (:804-809) before the new one is inserted. -/
def insertOrDiscardV (bodies : Bodies) (s : State) (d : Doc) : State × VIns :=
  match scanBack d.num none ((s.timeline.filter (fun x => x.time ≤ d.cbegin)).reverse) with
  | .discarded x => (s, .discarded x)
  | .inconsistent => (s, .valueError)
  | .ok bb =>
    match scanFwd d bb none (s.timeline.filter (fun x => d.cbegin ≤ x.time)) with
    | .inconsistent => (s, .valueError)
    | .overridden => (s, .overridden)
    | .typeError => (s, .typeError)
    | .ok ea tr =>
      let s1 := { s with timeline := trimPrev s.timeline bb ea d.cbegin }
      match bb with
      | none => insertDocumentV bodies s1 d (thisEnd d tr)
      | some p =>
        match logs bodies s1 p.doc none with
        | some err => (s1, .log err)
        | none => insertDocumentV bodies s1 d (thisEnd d tr)

/-- The second loop of `_override_sequence` (ebutt3.py:864-871) with `discard_document` (:411-430): each document is marked as
discarded, logged, and then taken out with its collected events, those that are not in `kept`.  `none`: no exception; `some none`: `ValueError`
or `KeyError`. -/
def overrideLoopV (bodies : Bodies) (b : Int) (kept : List Event) (s : State) : List Doc → State × Option (Option LogErr)
  | [] => (s, none)
  | x :: xs =>
    if b > x.cbegin ∨ x ∉ s.docs then (s, some none)
    else
      let s := { s with gone := (x, b) :: s.gone }
      match logs bodies s x (some b) with
      | some err => (s, some (some err))
      | none =>
        overrideLoopV bodies b kept
          { s with docs := s.docs.filter (fun y => y ≠ x)
                   timeline := s.timeline.filter (fun e => e.doc ≠ x ∨ e ∈ kept) } xs

/-- `_override_sequence` (ebutt3.py:841-871).  The documents are gone through in the order of a `dict`, which is any; here it is the one in
which the list of discarded documents of `Verif.Seq.Model` results. -/
def overrideSequenceV (bodies : Bodies) (s : State) (d : Doc) : State × Option (Option LogErr) :=
  let r := overrideScan d.cbegin d.num [] s.timeline
  overrideLoopV bodies d.cbegin r.1 s r.2.reverse

/-- The end of `add_document` (ebutt3.py:916-917). -/
def countV (s : State) (d : Doc) : State := { s with lastNum := max s.lastNum d.num }

/-- `add_document`'s handler for `DocumentDiscardedError` (ebutt3.py:910-914) with `discard_document` (:411-430). -/
def discardNewV (bodies : Bodies) (s : State) (d by' : Doc) : State × VOutcome :=
  match resolvedBegin s by' with
  | none => (s, .quiet .lookupError)
  | some t =>
    if t > d.cbegin then (s, .quiet .valueError)
    else
      let s := { s with gone := (d, t) :: s.gone }
      match logs bodies s d (some t) with
      | some err => (s, .log err)
      | none => (countV s d, .quiet .discarded)

/-- The retry after an override (ebutt3.py:905-909). -/
def retryV (bodies : Bodies) (s : State) (d : Doc) : State × VOutcome :=
  let o := overrideSequenceV bodies s d
  match o.2 with
  | some none => (o.1, .quiet .valueError)
  | some (some err) => (o.1, .log err)
  | none =>
    let r := insertOrDiscardV bodies o.1 d
    match r.2 with
    | .done => (countV r.1 d, .quiet .inserted)
    | .discarded _ => (r.1, .quiet .discardEscapes)
    | .overridden => (r.1, .quiet .overrideEscapes)
    | .valueError => (r.1, .quiet .valueError)
    | .typeError => (r.1, .quiet .typeError)
    | .log err => (r.1, .log err)

/-- `add_document` (ebutt3.py:898-917) of a logging sequence. -/
def addDocumentV (bodies : Bodies) (s : State) (d : Doc) : State × VOutcome :=
  match checkCompat s d with
  | .error o => (s, .quiet o)
  | .ok g =>
    let s := { s with agid := g }
    let r := insertOrDiscardV bodies s d
    match r.2 with
    | .done => (countV r.1 d, .quiet .inserted)
    | .discarded x => discardNewV bodies r.1 d x
    | .overridden => retryV bodies r.1 d
    | .valueError => (r.1, .quiet .valueError)
    | .typeError => (r.1, .quiet .typeError)
    | .log err => (r.1, .log err)

/-- A series of calls. -/
def runV (bodies : Bodies) (s : State) : List Doc → State × List VOutcome
  | [] => (s, [])
  | d :: ds =>
    let r := addDocumentV bodies s d
    let q := runV bodies r.1 ds
    (q.1, r.2 :: q.2)

end Verif.Seq
