import Verif.SegHead.Model
import Verif.Doc.Reseg

/-!
# Splicing whole documents

`EBUTT3Splicer` (ebu_tt_live/documents/ebutt3_splicer.py:20-80) on documents with head and body, and
`EBUTT3DocumentSequence.extract_segment` (documents/ebutt3.py:956-1010) with the validation of its result.

Simplification: what style objects remember of earlier validations is not copied; `Style.C29_history_independent` shows
that it makes no difference.
-/
namespace Verif.SegHead

open Verif.Doc (Node Att Win)
open Verif.Style (RegionDef RInfo Name Specified)

/-- The identifiers of a document, as the splicer sees them. -/
def HDoc.sdoc (d : HDoc) : Doc.SDoc where
  styles := if d.styling then some (d.head.sheet.map (·.1)) else none
  regions := if d.layout then some (d.head.regions.map (·.id)) else none
  body := d.body

/-- The identifier of the copy of a style (bindings/__init__.py:1008-1017). Without a styling in what has been merged so
far that of the other document is taken as it is (ebutt3_splicer.py:54-57). -/
def styleName (ids : List Name) (a : HDoc) (x : Name) : Name :=
  if a.styling && (a.head.sheet.map (·.1) ++ ids).contains x then Doc.dotOne x else x

/-- The copies of the regions (bindings/__init__.py:1093-1099). -/
def copyDefs (ids : List Name) : List RegionDef → List RegionDef
  | [] => []
  | r :: rs =>
    if ids.contains r.id then { r with id := Doc.dotOne r.id } :: copyDefs (Doc.dotOne r.id :: ids) rs
    else r :: copyDefs ids rs

/-- What the styles of the merged document set. -/
def mergedOwn (ids : List Name) (a d : HDoc) (n : Name) : Specified :=
  if n ∈ a.head.sheet.map (·.1) then a.head.own n
  else match d.head.sheet.find? (fun e => decide (styleName ids a e.1 = n)) with
    | some e => d.head.own e.1
    | none => {}

/-- One round of the loop of `_do_splice` (ebutt3_splicer.py:47-68). `tt_type.merge` and `head_type.merge` return the first
document's element (bindings/__init__.py:482-503, 669-670): its cell resolution, extent and time base are kept. Copies of
styles and regions refer to styles by the names they had. -/
def mergeH (st : List Name × HDoc) (d : HDoc) : List Name × HDoc :=
  let a := st.2
  let s := Doc.mergeStyling st.1 a.sdoc.styles d.sdoc.styles
  let l := Doc.mergeLayout s.1 a.sdoc.regions d.sdoc.regions
  let b := Doc.mergeBody l.1 a.body d.body
  (b.1,
    { head := {
        sheet := a.head.sheet ++ d.head.sheet.map (fun e => (styleName st.1 a e.1, e.2))
        own := mergedOwn st.1 a d
        regions := a.head.regions ++ (if a.layout then copyDefs (a.head.regions.map (·.id) ++ s.1) d.head.regions else d.head.regions)
        geo := a.head.geo }
      styling := a.styling || d.styling
      layout := a.layout || d.layout
      body := b.2
      avail := 0
      base := a.base
      rd := a.rd })

/-- `EBUTT3Splicer` (ebutt3_splicer.py:20-80). `none`: no segments, the constructor raises. -/
def spliceH : List HDoc → Option HDoc
  | [] => none
  | d :: ds => some (ds.foldl mergeH ([], d)).2

/-- `extract_segment(begin, end)` of a sequence (ebutt3.py:956-1010). A document whose segment cannot be extracted is left
out (ebutt3.py:982-991). The outer `none`: it raises, which it does if the spliced document is not valid (ebutt3.py:1007);
`some none`: there are no segments, and an empty document is returned (ebutt3.py:995-997). -/
def extractFull (s : Seq.State) (docs : Seq.Doc → HDoc) (lo hi : Option Int) : Option (Option HDoc) :=
  (Seq.extractWindows s lo hi).bind (fun ws =>
    match spliceH (ws.filterMap (fun w => ((docs w.1).extract ⟨w.2.1, w.2.2⟩ (some w.1.num)).toOption)) with
    | none => some none
    | some d => if d.validate.isOk then some (some d) else none)

end Verif.SegHead
