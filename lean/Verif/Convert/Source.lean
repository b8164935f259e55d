import Verif.Convert.Whole

/-
Model of what the conversion to EBU-TT-D does to the document it reads
(`/repo/ebu_tt_live/bindings/converters/ebutt3_ebuttd.py:70-119, 241-291, 322-350`).

`convert_p` and `convert_span` hand the list of style references of the source element to the new element
(ebutt3_ebuttd.py:271, 285).  Both attributes have the type `xs:IDREFS` (xsd/ebutt_live.xsd:64, 124, xsd/ebutt_d.xsd:209, 260)
and PyXB keeps a value that already has the type of the attribute, so that the two elements share one list object.
`celem.style.insert(0, …)` (ebutt3_ebuttd.py:119) changes that list.  PyXB is not part of the repository: that it keeps the
object is an assumption of this file.

The functions below are those of `Verif.Convert.Whole` with the source document as it is afterwards as a second result, also
when they raise.
-/
namespace Verif.Convert

open Verif.Doc Verif.Style

/-- The source element has the list of the converted one, unless it has none: then line 115-117 makes a new list for the
converted element. -/
def sameList : Node PLab → Node Att → Node PLab
  | .elem x kids, .elem a _ =>
    if x.att.style = [] then .elem x kids
    else if x.att.kind = .p ∨ x.att.kind = .span then .elem { x with att := { x.att with style := a.style } } kids
    else .elem x kids
  | n, _ => n

mutual
/-- `convert_element` of content (ebutt3_ebuttd.py:241-291, 352-354). -/
def sconv (m : Media) (nm : Rat → Name) : Node PLab → Convert.Sheet → Node PLab × Except WErr (Node Att × Convert.Sheet)
  | .text s, sh => (.text s, .ok (.text s, sh))
  | .br, sh => (.br, .ok (.br, sh))
  | .elem x kids, sh =>
    match sconvL m nm x kids sh with
    | (src, .error e) => (.elem x src, .error e)
    | (src, .ok (ks, sh)) =>
      match convAtt m x.att with
      | .error e => (.elem x src, .error (.conv e))
      | .ok a => (.elem x src, if ks.all (fitsD x.att.kind) then .ok (.elem a ks, sh) else .error (.conv .unrecognized))
/-- `convert_children` (ebutt3_ebuttd.py:322-350). -/
def sconvL (m : Media) (nm : Rat → Name) (parent : PLab) : List (Node PLab) → Convert.Sheet →
    List (Node PLab) × Except WErr (List (Node Att) × Convert.Sheet)
  | [], sh => ([], .ok ([], sh))
  | k :: ks, sh =>
    match sconv m nm k sh with
    | (k1, .error e) => (k1 :: ks, .error e)
    | (k1, .ok (k', sh)) =>
      match fixNode nm parent k k' sh with
      | .error e => (k1 :: ks, .error e)
      | .ok (k', sh) =>
        match sconvL m nm parent ks sh with
        | (src, .error e) => (sameList k1 k' :: src, .error e)
        | (src, .ok (ks', sh)) => (sameList k1 k' :: src, .ok (k' :: ks', sh))
end

/-- `convert_document` (ebutt3_ebuttd.py:130-144, 356-363): the source body afterwards and the result. -/
def convertShared (m : Media) (pr : Rat → List Char) (hd : Head) (res : Rat × Rat) (place : Name → List Char × List Char) (doc : Node PLab) :
    Node PLab × Except WErr DDoc :=
  match convRegions res place hd.regions with
  | .error e => (doc, .error e)
  | .ok ds =>
    if hasDiv (forget doc) then
      match sconv m (fontId pr) doc [] with
      | (src, .error e) => (src, .error e)
      | (src, .ok (out, sh)) => (src, .ok ⟨convStyles hd ++ sh.map (autoDStyle (fontId pr)), withDefaultRegion ds, some out⟩)
    else (doc, .ok ⟨convStyles hd, withDefaultRegion ds, none⟩)

end Verif.Convert
