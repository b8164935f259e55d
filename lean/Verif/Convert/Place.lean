import Verif.SegHead.PlaceProps
import Verif.Convert.LookSpec

/-
Where the regions of an EBU-TT-D document are: `convert_region`
(`/repo/ebu_tt_live/bindings/converters/ebutt3_ebuttd.py:178-199`) with the attributes that `Verif.Convert.Whole` leaves out, and
the cell resolution of the document (`ebutt3_ebuttd.py:136`).
-/
namespace Verif.Convert

open Verif.Doc (Item)
open Verif.Style (Name RegionDef)
open Verif.SegHead (Placed Extras Frame)

/-- Origin and extent of a region as written. -/
def placeOf (p : Placed) (n : Name) : List Char × List Char :=
  match p.regs.find? (fun q => decide (q.1.id = n)) with
  | some q => (q.2.origin, q.2.extent)
  | none => ([], [])

/-- The attributes that are passed as they are (ebutt3_ebuttd.py:193-197). -/
def convExtras (r : RegionDef × Frame) : Name × Extras :=
  (r.1.id, {
    displayAlign := r.2.extras.displayAlign
    writingMode := r.2.extras.writingMode
    showBackground := r.2.extras.showBackground
    overflow := r.2.extras.overflow })

/-- An EBU-TT-D document with those attributes, by the identifier of the region. -/
structure DPlaced where
  doc : DDoc
  extras : List (Name × Extras)

/-- `process_document` (node/encoder.py:35-48), with places. A default region has none of the attributes
(bindings/__init__.py:1165-1174). -/
def encodeP (m : Media) (pr : Rat → List Char) (p : Placed) : Option DPlaced :=
  (encodeH m pr p.cells (placeOf p) p.doc).map (fun d => ⟨d, p.regs.map convExtras⟩)

end Verif.Convert
