import Verif.Node.Seen

/-
Model of the deduplicator (`/repo/ebu_tt_live/node/deduplicator.py`).
-/
namespace Verif.Dedup
open Verif.Node

/-- A reference: `none` where the code has put Python's `None`. -/
abbrev Ref := Option String

/-- A style or region: identifier, style references, the values of the other declared attributes in the order
of their names (`none`: not set) and the foreign attributes (namespace, name, value). -/
structure DElem where
  id : String
  refs : List Ref := []
  vals : List (Option (List Char))
  wild : List (Option (List Char) × List Char × List Char) := []
deriving DecidableEq, Repr

/-- An element of the content: its style references and its region. -/
structure DUse where
  refs : List Ref
  region : Ref
deriving DecidableEq, Repr

/-- A document as the deduplicator sees it.  `uses` are the elements of the content in document order; a
missing tt:styling or tt:layout is an empty list. -/
structure DDoc where
  styles : List DElem
  regions : List DElem
  uses : List DUse
deriving DecidableEq, Repr

/-- A Python dict. -/
abbrev Dict (κ ν : Type) := List (κ × ν)

def Dict.get {κ ν : Type} [DecidableEq κ] : Dict κ ν → κ → Option ν
  | [], _ => none
  | (k, v) :: r, x => if k = x then some v else Dict.get r x

/-- `d[k] = v` -/
def Dict.put {κ ν : Type} [DecidableEq κ] : Dict κ ν → κ → ν → Dict κ ν
  | [], x, y => [(x, y)]
  | (k, v) :: r, x, y => if k = x then (k, y) :: r else (k, v) :: Dict.put r x y

/-- `str(ReplaceNone(value)) + '%'` (deduplicator.py:115-124, 143-145). -/
def enc (o : Option (List Char)) : List Char := o.getD ['|'] ++ ['%']

/-- Words separated by single spaces. -/
def spaced : List (List Char) → List Char
  | [] => []
  | [w] => w
  | w :: ws => w ++ ' ' :: spaced ws

/-- The text of a style attribute: absent if there are no references.  `str()` of the binding of a list of
references is taken to be the references separated by spaces. -/
def refsVal : List Ref → Option (List Char)
  | [] => none
  | rs => some (spaced (rs.map (fun r => (r.getD "None").toList)))

/-- `concatenatedStyleString` (deduplicator.py:134-151).  The references come first: among the declared
attributes `style` is the one without a namespace. -/
def textOf (e : DElem) : List Char :=
  enc (refsVal e.refs) ++ e.vals.flatMap enc ++
    e.wild.flatMap (fun w => w.1.getD ['|'] ++ '%' :: w.2.1 ++ '%' :: w.2.2)

/-- `old_id_dict`, `new_id_dict`, `hash_dict`. -/
structure DState where
  old : Dict String Int := []
  new : Dict Int String := []
  hash : Dict Int DElem := []

/-- `new_id_dict.get(old_id_dict.get(ref))` -/
def DState.renamed (s : DState) (r : Ref) : Ref := (r.bind s.old.get).bind s.new.get

/-- `CollateUniqueVals` (deduplicator.py:79-99); `h` is Python's `hash`. -/
def collate (h : List Char → Int) : DState → List DElem → DState
  | s, [] => s
  | s, v :: vs =>
    let v' := { v with refs := v.refs.map s.renamed }
    let key := h (textOf v')
    collate h { s with old := s.old.put v.id key, hash := s.hash.put key v' } vs

/-- `AppendNewElements` (deduplicator.py:101-113) over the items of the dict in the order given.  An element of
the list is the one in the dict if their identifiers are the same (the code compares the identifier objects). -/
def appendNew (els : List DElem) : DState → List (Int × DElem) → DState × List DElem
  | s, [] => (s, [])
  | s, (k, e) :: r =>
    let t := appendNew els { s with new := s.new.put k e.id } r
    (t.1, (els.filter (fun o => decide (o.id = e.id))).map (fun _ => e) ++ t.2)

/-- The loop of `ReplaceStylesAndRegions._process_element` (deduplicator.py:196-208), from index `i - 1`
downwards; `seen` is `id_to_index_dict`.  `none` is the `IndexError` of `del`. -/
def replaceRefs (mp : Ref → Ref) : Nat → List Ref → Dict Ref Nat → Option (List Ref)
  | 0, l, _ => some l
  | i + 1, l, seen =>
    match l[i]? with
    | none => none
    | some r =>
      match seen.get (mp r) with
      | none => replaceRefs mp i (l.set i (mp r)) (seen.put (mp r) i)
      | some p =>
        if p < l.length then replaceRefs mp i ((l.eraseIdx p).set i (mp r)) (seen.put (mp r) i)
        else none

/-- The same for a list of references from its last entry on. -/
def replaced (mp : Ref → Ref) (l : List Ref) : Option (List Ref) := replaceRefs mp l.length l []

/-- References of a style or region replaced. -/
def replaceElem (mp : Ref → Ref) (e : DElem) : Option DElem := (replaced mp e.refs).map (fun r => { e with refs := r })
/-- References of a content element replaced (deduplicator.py:186-219). -/
def replaceUse (mp : Ref → Ref) (u : DUse) : Option DUse :=
  (replaced mp u.refs).map (fun r => { refs := r, region := mp u.region })

/-- `remove_duplication` (deduplicator.py:51-77).  `order` is the order in which a dict gives its items. -/
def dedup (h : List Char → Int) (order : List (Int × DElem) → List (Int × DElem)) (d : DDoc) : Option DDoc :=
  let s := collate h {} d.styles
  let a := appendNew d.styles s (order s.hash)
  let s' := collate h a.1 d.regions
  let b := appendNew d.regions s' (order s'.hash)
  (a.2.mapM (replaceElem b.1.renamed)).bind (fun styles =>
    (b.2.mapM (replaceElem b.1.renamed)).bind (fun regions =>
      (d.uses.mapM (replaceUse b.1.renamed)).map (fun uses => ⟨styles, regions, uses⟩)))

/-! ### The node -/

/-- What is delivered: a document of a sequence with a number, or a message. -/
inductive DedupIn where
  | doc (sid : String) (num : Nat) (d : DDoc)
  | msg (m : String)

/-- How a delivery ends. -/
inductive DedupRes where
  | emitted (sid : String) (num : Nat) (d : DDoc)
  /-- duplicates and messages: nothing is done -/
  | ignored
  /-- `UnexpectedSequenceIdentifierError` -/
  | otherSequence
  /-- `IndexError` -/
  | failed

/-- `_seen_docs` and `_first_input_document_sequence`. -/
structure DedupNode where
  seen : Seen := []
  first : Option String := none

/-- `DeDuplicatorNode.process_document` (deduplicator.py:34-49).  The validation at the end is left out. -/
def dedupNode (h : List Char → Int) (order : List (Int × DElem) → List (Int × DElem)) (out : String) (s : DedupNode) :
    DedupIn → DedupNode × DedupRes
  | .msg _ => (s, .ignored)
  | .doc sid num d =>
    if sid = out then (s, .otherSequence)
    else
      let r := checkSeen s.seen sid num
      if r.1 = true then
        if s.first.getD sid ≠ sid then ({ s with seen := r.2 }, .otherSequence)
        else
          match dedup h order d with
          | none => ({ seen := r.2, first := some sid }, .failed)
          | some d' => ({ seen := r.2, first := some sid }, .emitted out num d')
      else ({ s with seen := r.2 }, .ignored)

end Verif.Dedup
