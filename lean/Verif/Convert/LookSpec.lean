import Verif.Convert.WholeProps
import Verif.SegHead.SpliceProps

/-
What an EBU-TT-D document shows at a media time and how it looks, and the encoder on whole documents:
`EBUTTDEncoder.process_document` (`/repo/ebu_tt_live/node/encoder.py:35-48`) on a validated document with head and body.
-/
namespace Verif.Convert

open Verif.Doc hiding Name
open Verif.Style
open Verif.SegHead (HDoc Full Piece newName)

/-- `process_document` (node/encoder.py:35-48): the document has been validated, then it is converted.  The sizes of cells and
the places of regions are parameters as in `convertDoc`. -/
def encodeH (m : Media) (pr : Rat → List Char) (res : Rat × Rat) (place : Name → List Char × List Char) (o : HDoc) : Option DDoc :=
  match o.validate with
  | .error _ => none
  | .ok (_, n) => (convertDoc m pr o.head res place (SegHead.mapN Full.pres n)).toOption

/-- A piece of content of an EBU-TT-D document with what the document says about its look. -/
structure DPiece where
  content : List Item
  /-- inherited attributes -/
  value : IAttr → Option Val
  background : Val
  bidi : Val
  /-- the height of the font in cells -/
  height : Rat
  region : Option Name

/-- How the content inside the given elements, outermost first, looks. -/
def dPiece (d : DDoc) (l : List Att × List Item) : DPiece where
  content := l.2
  value := dValue d l.1
  background := ((l.1.getLast?).bind (fun a => dGives d (·.simple .backgroundColor) a.style)).getD (rgba (initialSimple .backgroundColor))
  bidi := ((l.1.getLast?).bind (fun a => dGives d (·.simple .unicodeBidi) a.style)).getD (initialSimple .unicodeBidi)
  height := (dSize d l.1).2
  region := (dRegion d l.1).map (·.id)

/-- What an EBU-TT-D document shows at media time `u`, by the times written in it. -/
def dPiecesAt (d : DDoc) (u : Int) : List DPiece :=
  d.body.elim [] (fun n => ((pathLeaves n).filter (fun l => on u l.1)).map (dPiece d))

/-- A piece of an EBU-TT-D document looks like a piece of a live document: the same content, in the region of the same name but
for the prefix `pre`, with the same colour (in numbers), direction, font family, style and weight, line padding, alignment,
decoration and wrapping, the same background and bidi setting, and a font of the same height. -/
structure SameShown (pre : Option Nat) (p : Piece) (q : DPiece) : Prop where
  content : q.content = p.content
  value : ∀ x, x ≠ .multiRowAlign → q.value x = (p.style.inh x).1.map (recolor x)
  background : q.background = rgba (p.style.simple .backgroundColor)
  bidi : q.bidi = p.style.simple .unicodeBidi
  height : ∃ z, p.style.fs = some (.cell z) ∧ q.height = z.v
  region : q.region = p.region.map (newName pre)

end Verif.Convert
