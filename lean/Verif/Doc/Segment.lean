import Verif.Doc.Timing
import Verif.Time.Formats

/-
Model of the segmenter: `/repo/ebu_tt_live/documents/ebutt3_segmentation.py` (`EBUTT3Segmenter`), the
copy hooks of `/repo/ebu_tt_live/bindings/__init__.py` (`body_type`, `div_type`, `p_type`, `span_type`,
`br_type`), `is_in_segment` and `_semantic_copy_apply_leaf_timing` of
`/repo/ebu_tt_live/bindings/validation/timing.py` and the emptiness checks of
`/repo/ebu_tt_live/bindings/validation/content.py`.

Simplifications: the head is represented only by `Env.ref`, which tells for a referenced style or
region identifier the identifier of its copy, or that it was not copied; attributes that are copied
unchanged (space, lang, agent, role) and metadata are left out.
-/
namespace Verif.Doc

open Verif.Time (TimeBase Reader)

/-- Exceptions that end a segment extraction. -/
inductive SErr where
  /-- `instance_mapping[old_elem]`: a referenced style or region was not copied (validation/base.py:126-129) -/
  | keyError
  /-- the time cannot be written in the document's time format (`None`, or 100 hours and more on a clock time base) -/
  | timeError
  /-- `self._segment.body` is `None` (ebutt3_segmentation.py:207) -/
  | attributeError
deriving DecidableEq, Repr

/-- The window of a segment request; `none` is an absent argument. -/
structure Win where
  b : Option Int
  e : Option Int
deriving DecidableEq, Repr

/-- What the copy hooks take from their surroundings: the window, the document's time base, how a
clock text is read back, the sequence number to prefix identifiers with (`deconflict_ids`), and the
identifier of the copy of a referenced style or region. -/
structure Env where
  win : Win
  base : TimeBase
  rd : Reader
  pre : Option Nat
  ref : List Char → Option (List Char)

/-- `is_in_segment` (timing.py:272-279). -/
def inSeg (w : Win) (c : Comp) : Bool :=
  (match w.b, c.e with
    | some wb, some e => !decide (e ≤ wb)
    | _, _ => true) &&
  (match w.e with
    | some we => !decide (c.b ≥ we)
    | none => true)

/-- `tt_type.get_timing_type` (bindings/__init__.py:648-654) and `_convert_time`
(ebutt3_segmentation.py:137-143): the attribute value for a time, with the time it will be read as.
`None` cannot be turned into a time type (the pattern facet refuses it). -/
def stamp (v : Env) : Option Int → Except SErr TV
  | none => .error .timeError
  | some t =>
    match v.base with
    | .clock =>
      match Time.writeLimited t with
      | none => .error .timeError
      | some text => .ok ⟨text, (Time.readLimited v.rd text).getD 0⟩
    | .media => .ok ⟨Time.writeFull t, (Time.readFull v.rd (Time.writeFull t)).getD 0⟩
    | .smpte => .ok ⟨"00:00:00:00".toList, 0⟩

/-- `deconflict_id` (validation/base.py:204-211): `SEQ{n}.{id}`. -/
def seqPrefix (n : Nat) (id : List Char) : List Char :=
  "SEQ".toList ++ Time.digs n ++ '.' :: id

/-- The identifier of a copy (ebutt3_segmentation.py:65-77).  `body_type` is not an `IDMixin`; its
`_semantic_copy` sets no identifier (bindings/__init__.py:905-915). -/
def copyId (v : Env) (a : Att) : Option (List Char) :=
  match a.kind with
  | .body => none
  | _ =>
    match v.pre with
    | none => a.id
    | some n => a.id.map (seqPrefix n)

/-- `_semantic_deconflicted_ids` (validation/base.py:131-149) for a list of styles. -/
def copyRefs (v : Env) : List (List Char) → Except SErr (List (List Char))
  | [] => .ok []
  | s :: ss =>
    match v.ref s with
    | none => .error .keyError
    | some s' => do
      let ss' ← copyRefs v ss
      return s' :: ss'

/-- `_semantic_deconflicted_ids` for a region. -/
def copyRegion (v : Env) : Option (List Char) → Except SErr (Option (List Char))
  | none => .ok none
  | some r =>
    match v.ref r with
    | none => .error .keyError
    | some r' => .ok (some r')

/-- Whether the copy takes a region: div and p do, `span_type` and `body_type` have none. -/
def hasRegion : Kind → Bool
  | .div => true
  | .p => true
  | _ => false

/-- `_semantic_copy` of body, div, p and span and `_do_copy` (bindings/__init__.py:686-699, 757-769, 834-845, 905-915,
821-832, 905-915; ebutt3_segmentation.py:69-83).  Only `body_type` has
a `dur`. -/
def copyAtt (v : Env) (a : Att) : Except SErr Att := do
  let region ← copyRegion v (if hasRegion a.kind then a.region else none)
  let style ← copyRefs v a.style
  return { a with id := copyId v a, region := region, style := style, dur := match a.kind with | .body => a.dur | _ => none }

/-- `str.isspace` of one character in Python 2 (unicode). -/
def isWs (c : Char) : Bool :=
  let n := c.toNat
  (9 ≤ n && n ≤ 13) || (28 ≤ n && n ≤ 32) || n == 0x85 || n == 0xA0 || n == 0x1680 || n == 0x180E ||
  (0x2000 ≤ n && n ≤ 0x200A) || n == 0x2028 || n == 0x2029 || n == 0x202F || n == 0x205F || n == 0x3000

/-- `value.isspace()`: false for an empty text. -/
def isSpace (s : List Char) : Bool := !s.isEmpty && s.all isWs

/-- Has a child element of the kind (`len(self.span)`, `len(self.div)`, ...). -/
def hasKid (kd : Kind) (kids : List (Node Att)) : Bool :=
  kids.any (fun k => match k with
    | .elem a _ => decide (a.kind = kd)
    | _ => false)

/-- `is_empty` (content.py:27-43 for p and span, bindings/__init__.py:877-884 for div).  The body has
no such check. -/
def isEmpty (kd : Kind) (kids : List (Node Att)) : Bool :=
  match kd with
  | .body => false
  | .div => !(hasKid .div kids) && !(hasKid .p kids)
  | _ =>
    !(kids.any (fun k => match k with
        | .br => true
        | .text s => !isSpace s
        | .elem a _ => decide (a.kind = .span)))

/-- `is_timed_leaf` of the copy (timing.py:288-289, bindings/__init__.py:733-737, 800-804). -/
def isTimedLeaf (kd : Kind) (kids : List (Node Att)) : Bool :=
  match kd with
  | .p | .span => !(hasKid .span kids)
  | _ => false

/-- The begin of a leaf within the window (timing.py:299-305). -/
def trimBegin (w : Win) (b : Int) : Int :=
  match w.b with
  | some wb => if wb > b then wb else b
  | none => b

/-- The end of a leaf within the window (timing.py:306-308). -/
def trimEnd (w : Win) (e : Option Int) : Option Int :=
  match w.e with
  | none => e
  | some we =>
    match e with
    | none => some we
    | some e => if e > we then some we else some e

/-- `_semantic_copy_apply_leaf_timing` (timing.py:291-312). -/
def leafTiming (v : Env) (c : Comp) (a : Att) (kids : List (Node Att)) : Except SErr Att :=
  if isTimedLeaf a.kind kids then do
    let b ← stamp v (some (trimBegin v.win c.b))
    let e ← stamp v (trimEnd v.win c.e)
    return { a with beg := some b, fin := some e }
  else
    .ok { a with beg := none, fin := none, dur := none }

mutual
/-- One step of the segmenter (pyxb_utils.py:120-142 with ebutt3_segmentation.py:85-127): `none` when
the element is outside the window (`OutsideSegmentError`, a `StopBranchIteration`) or its copy is
empty (`DiscardElement`). -/
def segNode (v : Env) : Node Lab → Except SErr (Option (Node Att))
  | .text s => .ok (some (.text s))
  | .br => .ok (some .br)
  | .elem x kids =>
    if inSeg v.win x.comp then do
      let a ← copyAtt v x.att
      let ks ← segList v kids
      if isEmpty a.kind ks then
        return none
      else do
        let a ← leafTiming v x.comp a ks
        return some (.elem a ks)
    else .ok none
/-- The children in order (pyxb_utils.py:94-118). -/
def segList (v : Env) : List (Node Lab) → Except SErr (List (Node Att))
  | [] => .ok []
  | k :: ks => do
    let k' ← segNode v k
    let ks' ← segList v ks
    return k'.toList ++ ks'
end

/-- `compute_document_segment` for the body (ebutt3_segmentation.py:162-209): a body outside the
window is an error, a body without content gets the window as its times. -/
def segment (v : Env) (body : Node Lab) : Except SErr (Node Att) := do
  match ← segNode v body with
  | some (.elem a []) => do
    let b ← stamp v v.win.b
    let e ← stamp v v.win.e
    return .elem { a with beg := some b, fin := some e } []
  | some n => return n
  | none => throw .attributeError

end Verif.Doc
