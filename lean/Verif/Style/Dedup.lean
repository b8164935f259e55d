import Verif.Node.DedupProps
import Verif.Style.PresentProps

/-
A whole document before and after deduplication (`/repo/ebu_tt_live/node/deduplicator.py`): styles and regions with their attribute values,
and the content with its references, and what the validation at the end (deduplicator.py:48, bindings/__init__.py:611-620) makes of it.
-/
namespace Verif.Style

open Verif.Doc (Node Att Kind Reach)
open Verif.Dedup (DElem DUse DDoc Ref)

/-- A reference of the content as the deduplicator sees it. -/
def refOf (x : Name) : Ref := some (String.ofList x)

/-- A reference as it stands in the document afterwards: `None` put into a list of references becomes its text. -/
def nameOf (r : Ref) : Name := (r.getD "None").toList

mutual
/-- The references of the elements of the content, in the order of the traversal (deduplicator.py:186-219,
bindings/pyxb_utils.py:91-148): an element before its content. -/
def usesOf : Node Att → List DUse
  | .text _ => []
  | .br => []
  | .elem a kids => ⟨a.style.map refOf, a.region.bind refOf⟩ :: usesOfL kids
def usesOfL : List (Node Att) → List DUse
  | [] => []
  | k :: ks => usesOf k ++ usesOfL ks
end

mutual
/-- The content with other references put in, in the same order (deduplicator.py:205, 216), and what is left of them.  `None` as a region
removes the attribute. -/
def fill : List DUse → Node Att → List DUse × Node Att
  | us, .text s => (us, .text s)
  | us, .br => (us, .br)
  | [], .elem a kids => ([], .elem a kids)
  | u :: us, .elem a kids =>
    let r := fillL us kids
    (r.1, .elem { a with style := u.refs.map nameOf, region := u.region.map String.toList } r.2)
def fillL : List DUse → List (Node Att) → List DUse × List (Node Att)
  | us, [] => (us, [])
  | us, k :: ks =>
    let r := fill us k
    let rs := fillL r.1 ks
    (rs.1, r.2 :: rs.2)
end

/-- A document: what the deduplicator sees of the head, and the content. -/
structure Whole where
  styles : List DElem
  regions : List DElem
  body : Node Att

/-- The document as `remove_duplication` goes through it (deduplicator.py:51-77). -/
def Whole.seen (w : Whole) : DDoc := ⟨w.styles, w.regions, usesOf w.body⟩

/-- `remove_duplication` (deduplicator.py:51-77) on the document.  `none` is the `IndexError`. -/
def dedupWhole (h : List Char → Int) (order : List (Int × DElem) → List (Int × DElem)) (w : Whole) : Option Whole :=
  (Dedup.dedup h order w.seen).map (fun d => ⟨d.styles, d.regions, (fill d.uses w.body).2⟩)

/-- The head as validation reads it.  `mean` is what a style specifies that has the given attribute values, `pad` the padding of a region. -/
def Whole.head (mean : List (Option Val) → Specified) (pad : List (Option Val) → Option Val) (g : Geometry) (w : Whole) : Head where
  sheet := w.styles.map (fun s => (s.id.toList, s.refs.map nameOf))
  own := fun n => ((w.styles.find? (fun s => decide (s.id.toList = n))).map (fun s => mean s.vals)).getD {}
  regions := w.regions.map (fun r => { id := r.id.toList, refs := r.refs.map nameOf, padding := pad r.vals })
  geo := g

/-- Validation of the document: its presentation part (deduplicator.py:48, bindings/__init__.py:611-620). -/
def Whole.validated (mean : List (Option Val) → Specified) (pad : List (Option Val) → Option Val) (g : Geometry) (w : Whole) :
    Except PErr (List RInfo × Node PLab) := presentDoc (w.head mean pad g) w.body

end Verif.Style
