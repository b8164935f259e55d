import Verif.Seq.Model

/-
Model of `content_to_string` (ebutt3.py:447-482, bindings/validation/content.py:45-82): how the paragraphs of a document are
written to the log.
-/
namespace Verif.Print

/-- What can stand in a paragraph or a span (xsd/ebutt_live.xsd:225-236, 281-291). -/
inductive Item where
  | text (s : String)
  | br
  /-- `tt:metadata`; its class has no `content_to_string` -/
  | metadata
  /-- a span with its computed times -/
  | span (cbegin : Int) (cend : Option Int) (items : List Item)

/-- A paragraph with its computed times. -/
structure Para where
  cbegin : Int
  cend : Option Int
  items : List Item

/-- A line of the log.  The attribute values and the class name in the lines about timings are left out. -/
inductive Line where
  | discarded
  | timings (b e : Int)
  | text (s : String)
  | br
  deriving DecidableEq, Repr

/-- The line about the timings (content.py:47-75). -/
def timings (cb : Int) (ce b e : Option Int) : List Line :=
  match e with
  | none => []
  | some e =>
    if e ≤ cb then [.discarded]
    else
      let re := match ce with
        | some c => if e < c then e else c
        | none => e
      let rb := match b with
        | some b => if b > cb then b else cb
        | none => cb
      [.timings rb re]

mutual
/-- One item of the ordered content (content.py:76-80); `br_type.content_to_string` (bindings/__init__.py:820-821).  `none`: `AttributeError`. -/
def item (b e : Option Int) : Item → Option (List Line)
  | .text s => some [.text s]
  | .br => some [.br]
  | .metadata => none
  | .span cb ce its => (items b e its).map (fun r => timings cb ce b e ++ r)

/-- The loop over the ordered content (content.py:76-80). -/
def items (b e : Option Int) : List Item → Option (List Line)
  | [] => some []
  | i :: rest =>
    match item b e i with
    | none => none
    | some l => (items b e rest).map (fun r => l ++ r)
end

/-- `SubtitleContentContainer.content_to_string` (content.py:45-82) of a paragraph. -/
def para (b e : Option Int) (p : Para) : Option (List Line) :=
  (items b e p.items).map (fun r => timings p.cbegin p.cend b e ++ r)

/-- Insertion into the sorted timeline (ebutt3.py:97-100, 105-114), seen on the paragraphs. -/
def insertPara (p : Para) : List Para → List Para
  | [] => [p]
  | x :: xs => if p.cbegin < x.cbegin then p :: x :: xs else x :: insertPara p xs

/-- The paragraphs in the order of the document's own timeline; they are added in document order (timing.py:260-268). -/
def inOrder (ps : List Para) : List Para := ps.foldl (fun acc p => insertPara p acc) []

/-- `lookup_range_on_timeline(begin=None, end=end)` (ebutt3.py:128-150) and the selection of the paragraphs (:455-459): those
that begin before the end. -/
def affected (e : Option Int) (ps : List Para) : List Para :=
  match e with
  | none => inOrder ps
  | some t => (inOrder ps).filter (fun p => p.cbegin < t)

/-- The loop over the paragraphs (ebutt3.py:474-482). -/
def paras (b e : Option Int) : List Para → Option (List Line)
  | [] => some []
  | p :: ps =>
    match para b e p with
    | none => none
    | some l => (paras b e ps).map (fun r => l ++ r)

/-- The end up to which a document is written out (ebutt3.py:466-472), given its resolved end. -/
def upToEnd (e re : Option Int) : Option Int :=
  match e, re with
  | some x, some r => if x < r then some x else some r
  | some x, none => some x
  | none, r => r

/-- `content_to_string(end=e)` (ebutt3.py:447-482) of a document with these paragraphs and resolved times; the begin is never given. -/
def content (ps : List Para) (rb : Int) (re e : Option Int) : Option (List Line) :=
  paras (some rb) (upToEnd e re) (affected e ps)

end Verif.Print
