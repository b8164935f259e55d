import Verif.SegHead.Splice

/-!
# Where regions are, through segments and splicing

What `Verif.SegHead.Model` and `Verif.SegHead.Splice` leave out of regions: origin, extent, displayAlign, writingMode,
showBackground and overflow. `region_type._semantic_copy` (ebu_tt_live/bindings/__init__.py:1043-1057) copies each by name,
`layout.merge` (bindings/__init__.py:1089-1101) copies the whole element, and the cell resolution of the document, which
sizes in cells refer to, is copied with the tt element (bindings/__init__.py:460-480, `Verif.Tt.C71_parameters_kept_partial`) and kept from
the first document by `tt_type.merge` (bindings/__init__.py:482-503).

The values are the characters written; that they are well formed is a matter of the schema.
-/
namespace Verif.SegHead

open Verif.Doc (Node Att Win Env SErr)
open Verif.Style (RegionDef Name)

/-- How content is arranged in a region (ebutt_live.xsd:104-141). -/
structure Extras where
  displayAlign : Option (List Char) := none
  writingMode : Option (List Char) := none
  showBackground : Option (List Char) := none
  overflow : Option (List Char) := none
deriving DecidableEq, Repr

/-- The attributes of a region element besides identifier, styles and padding (ebutt_live.xsd:104-141). -/
structure Frame where
  origin : List Char
  extent : List Char
  extras : Extras := {}
deriving DecidableEq, Repr

/-- A document whose regions have places. `regs` are the regions of the head, `cells` is `ttp:cellResolution`. -/
structure Placed where
  doc : HDoc
  regs : List (RegionDef × Frame)
  cells : Rat × Rat

/-- `regs` are the regions of the document. -/
def Placed.Ok (p : Placed) : Prop := p.regs.map (·.1) = p.doc.head.regions

/-- `region_type._semantic_copy` (bindings/__init__.py:1043-1057) for the collected regions, as in `copyRegions`. -/
def copyPlaced (v : Env) (coll : List Name) (pre : Option Nat) : List (RegionDef × Frame) → Except SErr (List (RegionDef × Frame))
  | [] => .ok []
  | r :: rs =>
    if r.1.id ∈ coll then do
      let refs ← Doc.copyRefs v r.1.refs
      let rest ← copyPlaced v coll pre rs
      return ({ r.1 with id := newName pre r.1.id, refs := refs },
        { origin := r.2.origin
          extent := r.2.extent
          extras := {
            displayAlign := r.2.extras.displayAlign
            writingMode := r.2.extras.writingMode
            showBackground := r.2.extras.showBackground
            overflow := r.2.extras.overflow } }) :: rest
    else copyPlaced v coll pre rs

/-- `compute_document_segment` (ebutt3_segmentation.py:162-209), with places. -/
def Placed.segment (p : Placed) (w : Win) (pre : Option Nat) (n : Node Full) : Except SErr Placed := do
  let s ← segmentOf p.doc w pre n
  let regs ← copyPlaced (segEnv p.doc w pre n) (collRegions w n) pre p.regs
  return {
    doc := s
    regs := regs.filter (fun r => decide (r.1.id ∈ (usedRegions w n).map (newName pre)))
    cells := p.cells }

/-- `EBUTT3Document.extract_segment` (documents/ebutt3.py:542-561), with places. -/
def Placed.extract (p : Placed) (w : Win) (pre : Option Nat) : Except XErr Placed :=
  match p.doc.validate with
  | .error e => .error (.validation e)
  | .ok (_, n) =>
    match p.segment w pre n with
    | .error e => .error (.segment e)
    | .ok s =>
      match s.doc.validate with
      | .error e => .error (.result e)
      | .ok _ => .ok s

/-- `layout.merge` (bindings/__init__.py:1089-1101): a copy of each region, with another identifier if its own is taken. -/
def copyDefsP (ids : List Name) : List (RegionDef × Frame) → List (RegionDef × Frame)
  | [] => []
  | r :: rs =>
    if ids.contains r.1.id then ({ r.1 with id := Doc.dotOne r.1.id }, r.2) :: copyDefsP (Doc.dotOne r.1.id :: ids) rs
    else r :: copyDefsP ids rs

/-- One round of `_do_splice` (ebutt3_splicer.py:47-68), with places; see `mergeH`. -/
def mergeP (st : List Name × Placed) (d : Placed) : List Name × Placed :=
  let a := st.2
  let r := mergeH (st.1, a.doc) d.doc
  let s := Doc.mergeStyling st.1 a.doc.sdoc.styles d.doc.sdoc.styles
  (r.1,
    { doc := r.2
      regs := a.regs ++ (if a.doc.layout then copyDefsP (a.regs.map (·.1.id) ++ s.1) d.regs else d.regs)
      cells := a.cells })

/-- `EBUTT3Splicer` (ebutt3_splicer.py:20-80), with places. -/
def spliceP : List Placed → Option Placed
  | [] => none
  | d :: ds => some (ds.foldl mergeP ([], d)).2

/-- `extract_segment(begin, end)` of a sequence (ebutt3.py:956-1010), with places; see `extractFull`. -/
def extractPlaced (s : Seq.State) (docs : Seq.Doc → Placed) (lo hi : Option Int) : Option (Option Placed) :=
  (Seq.extractWindows s lo hi).bind (fun ws =>
    match spliceP (ws.filterMap (fun w => ((docs w.1).extract ⟨w.2.1, w.2.2⟩ (some w.1.num)).toOption)) with
    | none => some none
    | some d => if d.doc.validate.isOk then some (some d) else none)

end Verif.SegHead
