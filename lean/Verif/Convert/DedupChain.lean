import Verif.Style.DedupProps
import Verif.Convert.WholeCases

/-! C106: a deduplicator before the encoder. -/
namespace Verif.Convert

open Verif.Doc (Node Att Kind Reach shaped shapedL fits hasRegion)
open Verif.Style
open Verif.Dedup (DElem DUse Ref found look regionLook useLook keepFirst)

/-- The origin and extent of the region named, as written (what `convert_region` reads, ebutt3_ebuttd.py:178-199); `spot` finds them among the attribute values of the region. -/
def _root_.Verif.Style.Whole.place (spot : List (Option Val) → List Char × List Char) (w : Whole) (n : Name) : List Char × List Char :=
  ((w.regions.find? (fun r => decide (r.id.toList = n))).map (fun r => spot r.vals)).getD ([], [])

/-- The encoder (node/encoder.py, ebutt3_ebuttd.py:130-144) on a document as the deduplicator sees it. -/
def _root_.Verif.Style.Whole.encoded (m : Media) (pr : Rat → List Char) (res : Rat × Rat) (spot : List (Option Val) → List Char × List Char)
    (mean : List (Option Val) → Specified) (pad : List (Option Val) → Option Val) (g : Geometry) (w : Whole) (doc : Node PLab) : Except WErr DDoc :=
  convertDoc m pr (w.head mean pad g) res (w.place spot) doc

/-! ### Specification -/

mutual
/-- Content without its references to styles and regions: elements with their identifiers and times, text and line breaks. -/
def plain : Node Att → Node Att
  | .elem a kids => .elem { a with style := [], region := none } (plainL kids)
  | n => n
def plainL : List (Node Att) → List (Node Att)
  | [] => []
  | k :: ks => plain k :: plainL ks
end

/-- An element without its references. -/
def noRefs (a : Att) : Att := { a with style := [], region := none }

end Verif.Convert
