import Verif.SegHead.Timeline
import Verif.Style.PresentProps

/-!
# Segments of whole documents: head and body

The semantic validation of a document with head and body in one traversal, and
`EBUTT3Segmenter.compute_document_segment` (ebu_tt_live/documents/ebutt3_segmentation.py:162-209) with what it does to
styles and regions: which of them are collected, copied and pruned.

Not modelled: metadata; attributes of regions other than `padding`, for which see `Verif.SegHead.Place`.
-/
namespace Verif.SegHead

open Verif.Doc (Node Att Kind Lab Comp Win Env SErr TErr)
open Verif.Style (Head PLab RInfo RegionDef PErr Name Sheet Specified Computed)
open Verif.Time (TimeBase Reader)

mutual
/-- Relabel the elements of a tree. -/
def mapN {α β : Type} (f : α → β) : Node α → Node β
  | .text s => .text s
  | .br => .br
  | .elem x kids => .elem (f x) (mapNL f kids)
def mapNL {α β : Type} (f : α → β) : List (Node α) → List (Node β)
  | [] => []
  | k :: ks => mapN f k :: mapNL f ks
end

/-- A validated element: its times and what belongs to presentation. -/
structure Full where
  lab : Lab
  pres : PLab

def Full.att (x : Full) : Att := x.lab.att
def Full.kind (x : Full) : Kind := x.lab.att.kind
def Full.comp (x : Full) : Comp := x.lab.comp

/-- Why a validation fails. -/
inductive VErr where
  /-- `ERR_SEMANTIC_ID_UNIQUENESS` (validation/base.py:213-222) -/
  | duplicateId
  | timing (e : TErr)
  | pres (e : PErr)
deriving DecidableEq, Repr

/-- Raise the errors of one part of validation. -/
def liftE {ε α : Type} (f : ε → VErr) : Except ε α → Except VErr α
  | .ok a => .ok a
  | .error e => .error (f e)

mutual
/-- The traversal (pyxb_utils.py:120-142) with the hooks of body, div, p and span for timing and presentation
(bindings/__init__.py:716-728, 785-795, 860-872, 978-988). -/
def check (hd : Head) (infos : List RInfo) (tc : Doc.Ctx) (pc : Style.Ctx) (parent : Option Computed) :
    Node Att → Except VErr (Doc.Ctx × Style.Ctx × Node Full)
  | .text s => .ok (tc, pc, .text s)
  | .br => .ok (tc, pc, .br)
  | .elem a kids => do
    let rg ← liftE .pres (Style.setRegion infos a pc.region)
    let refd ← liftE .pres (Style.refStyles hd a.style)
    let x := Style.label hd a pc.stack rg parent refd
    let r ← checkL hd infos (Doc.pre tc a).1 ⟨pc.stack ++ [refd], rg⟩ (some x.comp) kids
    let t ← liftE .timing (Doc.post r.1 a (Doc.pre tc a).2.1 (Doc.pre tc a).2.2 (mapNL Full.lab r.2.2))
    return (t.1, Style.leave a r.2.1, .elem ⟨⟨a, t.2⟩, x⟩ r.2.2)
/-- The children in order. -/
def checkL (hd : Head) (infos : List RInfo) (tc : Doc.Ctx) (pc : Style.Ctx) (parent : Option Computed) :
    List (Node Att) → Except VErr (Doc.Ctx × Style.Ctx × List (Node Full))
  | [] => .ok (tc, pc, [])
  | k :: ks => do
    let r ← check hd infos tc pc parent k
    let rs ← checkL hd infos r.1 r.2.1 parent ks
    return (rs.1, rs.2.1, r.2.2 :: rs.2.2)
end

/-- A document. `styling` and `layout` tell whether the head has these elements. -/
structure HDoc where
  head : Head
  styling : Bool
  layout : Bool
  body : Node Att
  avail : Int
  base : TimeBase
  rd : Reader

/-- The identifiers that validation registers, head first (see `Verif.Ids.C51_unique`). A body registers none. -/
def HDoc.ids (d : HDoc) : List Name :=
  d.head.sheet.map (·.1) ++ d.head.regions.map (·.id) ++
    Doc.idsOf (fun a => if a.kind = .body then none else a.id) d.body

/-- `EBUTT3Document.validate` (documents/ebutt3.py:484-514) for a document with a body. -/
def HDoc.validate (d : HDoc) : Except VErr (List RInfo × Node Full) :=
  if d.ids.Nodup then do
    let infos ← liftE .pres (Style.presentRegions d.head d.head.regions)
    let r ← check d.head infos (Doc.initCtx d.avail) ⟨[], none⟩ none d.body
    return (infos, r.2.2)
  else .error .duplicateId

mutual
/-- The p and span elements in the order in which they are put on the timeline: after their content
(bindings/__init__.py:724-728, 792-795). -/
def timed : Node Full → List Full
  | .elem x kids => timedL kids ++ (if x.kind = .p ∨ x.kind = .span then [x] else [])
  | _ => []
def timedL : List (Node Full) → List Full
  | [] => []
  | k :: ks => timed k ++ timedL ks
end

/-- The label of the body. -/
def rootOf : Node Full → List Full
  | .elem x _ => [x]
  | _ => []

/-- The styled elements among `affected_elements` before styles are added (ebutt3_segmentation.py:167-172): what the
timeline has in the range, and the body. -/
def affected (w : Win) (n : Node Full) : List Full :=
  rootOf n ++ (lookupRange (timeline ((timed n).map Full.comp)) w).filterMap (fun i => (timed n)[i]?)

/-- The collected styles and regions (ebutt3_segmentation.py:175-188). -/
def collStyles (w : Win) (n : Node Full) : List Name := (affected w n).flatMap (·.pres.validated)
def collRegions (w : Win) (n : Node Full) : List Name := (affected w n).filterMap (fun x => x.pres.region.map (·.id))

/-- `deconflict_id`, if asked for (validation/base.py:206-211, ebutt3_segmentation.py:65-77). -/
def newName (pre : Option Nat) (x : Name) : Name :=
  match pre with
  | none => x
  | some n => Doc.seqPrefix n x

/-- What the copy hooks of the body find: a style or region has a copy if it was collected
(bindings/__init__.py:427-429, 1075-1077; validation/base.py:126-149). -/
def segEnv (d : HDoc) (w : Win) (pre : Option Nat) (n : Node Full) : Env where
  win := w
  base := d.base
  rd := d.rd
  pre := pre
  ref := fun x => if x ∈ collStyles w n ∨ x ∈ collRegions w n then some (newName pre x) else none

/-- The copied styles with their references (bindings/__init__.py:109-129, 1021-1035). -/
def copySheet (v : Env) (coll : List Name) (pre : Option Nat) : Sheet → Except SErr Sheet
  | [] => .ok []
  | s :: ss =>
    if s.1 ∈ coll then do
      let refs ← Doc.copyRefs v s.2
      let rest ← copySheet v coll pre ss
      return (newName pre s.1, refs) :: rest
    else copySheet v coll pre ss

/-- The copied regions (bindings/__init__.py:1043-1057). -/
def copyRegions (v : Env) (coll : List Name) (pre : Option Nat) : List RegionDef → Except SErr (List RegionDef)
  | [] => .ok []
  | r :: rs =>
    if r.id ∈ coll then do
      let refs ← Doc.copyRefs v r.refs
      let rest ← copyRegions v coll pre rs
      return { r with id := newName pre r.id, refs := refs } :: rest
    else copyRegions v coll pre rs

mutual
/-- The elements that are copied and kept: those in the window whose copy is not empty
(ebutt3_segmentation.py:85-121, as in `Verif.Doc.segNode`). -/
def cut (w : Win) : Node Full → Option (Node Full)
  | .text s => some (.text s)
  | .br => some .br
  | .elem x kids =>
    if Doc.inSeg w x.comp then
      if Doc.isEmpty x.kind (mapNL Full.att (cutL w kids)) then none else some (.elem x (cutL w kids))
    else none
def cutL (w : Win) : List (Node Full) → List (Node Full)
  | [] => []
  | k :: ks => (cut w k).toList ++ cutL w ks
end

mutual
/-- All labels in document order. -/
def labelsOf {α : Type} : Node α → List α
  | .elem x kids => x :: labelsOfL kids
  | _ => []
def labelsOfL {α : Type} : List (Node α) → List α
  | [] => []
  | k :: ks => labelsOf k ++ labelsOfL ks
end

/-- The elements whose copy was kept, which take what they use off the orphans (presentation.py:162-167, 191-195).
An element that is discarded because it is empty has no element in it that was kept. -/
def kept (w : Win) (n : Node Full) : List Full := ((cut w n).toList).flatMap labelsOf

/-- Styles and regions that are not orphans at the end (ebutt3_segmentation.py:145-160). -/
def usedStyles (w : Win) (n : Node Full) : List Name := (kept w n).flatMap (·.pres.validated)
def usedRegions (w : Win) (n : Node Full) : List Name := (kept w n).filterMap (fun x => Style.ownRegion x.att)

/-- What a style sets, without `multiRowAlign`: `style_type._semantic_copy` leaves it out (bindings/__init__.py:109-129). -/
def dropMRA (s : Specified) : Specified :=
  { s with inh := fun x => if x = .multiRowAlign then none else s.inh x }

/-- What the copied styles set. -/
def copiedOwn (hd : Head) (pre : Option Nat) (n : Name) : Specified :=
  match hd.sheet.find? (fun s => decide (newName pre s.1 = n)) with
  | some s => dropMRA (hd.own s.1)
  | none => {}

/-- `compute_document_segment` (ebutt3_segmentation.py:162-209) for a validated document. Without a `styling` or a
`layout` in the head, pruning raises `AttributeError` (ebutt3_segmentation.py:157-160). -/
def segmentOf (d : HDoc) (w : Win) (pre : Option Nat) (n : Node Full) : Except SErr HDoc := do
  let v := segEnv d w pre n
  let sheet ← copySheet v (collStyles w n) pre d.head.sheet
  let regions ← copyRegions v (collRegions w n) pre d.head.regions
  let body ← Doc.segment v (mapN Full.lab n)
  if d.styling = false ∨ d.layout = false then throw .attributeError
  let sheet := sheet.filter (fun s => decide (s.1 ∈ (usedStyles w n).map (newName pre)))
  let regions := regions.filter (fun r => decide (r.id ∈ (usedRegions w n).map (newName pre)))
  return {
    head := { sheet := sheet, own := copiedOwn d.head pre, regions := regions, geo := d.head.geo }
    styling := !sheet.isEmpty
    layout := true
    body := body
    avail := 0
    base := d.base
    rd := d.rd }

/-- Why `extract_segment` fails. -/
inductive XErr where
  | validation (e : VErr)
  | segment (e : SErr)
  /-- the segment is not valid -/
  | result (e : VErr)
deriving DecidableEq, Repr

/-- `EBUTT3Document.extract_segment` (documents/ebutt3.py:542-561): validation, the segment, and the validation of the
segment by `create_from_raw_binding` (ebutt3.py:307-313). -/
def HDoc.extract (d : HDoc) (w : Win) (pre : Option Nat) : Except XErr HDoc :=
  match d.validate with
  | .error e => .error (.validation e)
  | .ok (_, n) =>
    match segmentOf d w pre n with
    | .error e => .error (.segment e)
    | .ok s =>
      match s.validate with
      | .error e => .error (.result e)
      | .ok _ => .ok s

end Verif.SegHead
