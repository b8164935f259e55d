import Verif.Convert.Model
import Verif.Convert.Fonts
import Verif.Style.PresentProps
import Verif.Size.Model

/-
Model of the conversion of a whole validated document to EBU-TT-D: head, content and generated font styles together
(`/repo/ebu_tt_live/bindings/converters/ebutt3_ebuttd.py:121-363`), with `named_color_to_rgba` and
`convert_cell_region_to_percentage` (`/repo/ebu_tt_live/bindings/_ebuttdt.py:118-147`), the attributes of
`/repo/ebu_tt_live/xsd/ebutt_d.xsd:52-128` and the default values of `/repo/ebu_tt_live/bindings/__init__.py:1156-1198`.

Simplifications: those of `Verif.Convert.Model` and `Verif.Convert.Fonts`; the printed percentage of a generated style's
identifier is a parameter; percentages of regions are exact numbers; attributes of regions that are copied as they are
(displayAlign, writingMode, showBackground, overflow) are left out; in the program the generated styles are in the order of
a dictionary.
-/
namespace Verif.Convert

open Verif.Doc Verif.Style
open Verif.Size (Measure readOrigin readExtent)

/-- A style of an EBU-TT-D document. -/
structure DStyle where
  id : Name
  own : Specified

/-- A region of an EBU-TT-D document: origin and extent with their unit. -/
structure DRegion where
  id : Name
  refs : List Name
  padding : Option Val
  origin : Measure × Rat × Rat
  extent : Measure × Rat × Rat

/-- An EBU-TT-D document. -/
structure DDoc where
  styles : List DStyle
  regions : List DRegion
  body : Option (Node Att)

/-- Exceptions. -/
inductive WErr where
  | conv (e : CErr)
  /-- `ZeroDivisionError` of `_fix_fontsize` -/
  | zero
  /-- a font size that is not in cells; does not happen (`C31_document_cells`) -/
  | notCells
  /-- a region whose origin or extent is no size; does not pass validation (`C70_accepted_iff`) -/
  | badSize
deriving DecidableEq, Repr

/-! ### Styles and regions -/

/-- `color_map` (_ebuttdt.py:119-139). -/
def colorMap : List (List Char × List Char) :=
  [("transparent", "#00000000"), ("black", "#000000ff"), ("silver", "#c0c0c0ff"), ("gray", "#808080ff"),
   ("white", "#ffffffff"), ("maroon", "#800000ff"), ("red", "#ff0000ff"), ("purple", "#800080ff"),
   ("fuchsia", "#ff00ffff"), ("magenta", "#ff00ffff"), ("green", "#008000ff"), ("lime", "#00ff00ff"),
   ("olive", "#808000ff"), ("yellow", "#ffff00ff"), ("navy", "#000080ff"), ("blue", "#0000ffff"),
   ("teal", "#008080ff"), ("aqua", "#00ffffff"), ("cyan", "#00ffffff")].map (fun p => (p.1.toList, p.2.toList))

/-- `named_color_to_rgba` (_ebuttdt.py:118-140) where the colour has a name (ebutt3_ebuttd.py:211-218). -/
def rgba (v : Val) : Val := (colorMap.lookup v).getD v

/-- `convert_style` (ebutt3_ebuttd.py:210-239).  `style` and `padding` are passed too, but a style of EBU-TT-D has no such
attributes and unknown ones are dropped (`_strict_keywords=False`); `multiRowAlign` is not passed. -/
def convSpec (s : Specified) : Specified where
  simple := fun x => match x with
    | .backgroundColor => (s.simple .backgroundColor).map rgba
    | .padding => none
    | .unicodeBidi => s.simple .unicodeBidi
  inh := fun x => match x with
    | .color => (s.inh .color).map rgba
    | .multiRowAlign => none
    | y => s.inh y
  fs := none
  lh := none

/-- `convert_styling` with the default of `convert_head` (ebutt3_ebuttd.py:159-160, 201-208). -/
def convStyles (hd : Head) : List DStyle :=
  if hd.sheet = [] then [⟨"style.default".toList, {}⟩] else hd.sheet.map (fun p => ⟨p.1, convSpec (hd.own p.1)⟩)

/-- `convert_cell_region_to_percentage` (_ebuttdt.py:143-147) where the size is in cells (ebutt3_ebuttd.py:179-186). -/
def convPlace (res : Rat × Rat) : Measure × Rat × Rat → Measure × Rat × Rat
  | (.cell, h, v) => (.pct, h / res.1 * 100, v / res.2 * 100)
  | x => x

/-- `convert_region` (ebutt3_ebuttd.py:178-199); `place` gives the origin and extent of a region as written. -/
def convRegion (res : Rat × Rat) (place : Name → List Char × List Char) (r : RegionDef) : Except WErr DRegion :=
  match readOrigin (place r.id).1, readExtent (place r.id).2 with
  | some o, some e => .ok ⟨r.id, r.refs, r.padding, convPlace res o, convPlace res e⟩
  | _, _ => .error .badSize

def convRegions (res : Rat × Rat) (place : Name → List Char × List Char) : List RegionDef → Except WErr (List DRegion)
  | [] => .ok []
  | r :: rs =>
    match convRegion res place r with
    | .error e => .error e
    | .ok d =>
      match convRegions res place rs with
      | .error e => .error e
      | .ok ds => .ok (d :: ds)

/-- `convert_layout` with the default of `convert_head` (ebutt3_ebuttd.py:161-164, 168-176). -/
def withDefaultRegion : List DRegion → List DRegion
  | [] => [⟨"region.default".toList, [], none, (.pct, 0, 0), (.pct, 100, 100)⟩]
  | ds => ds

/-! ### Content -/

/-- The computed font size, which is in cells, and line height (ebutt3_ebuttd.py:83-84). -/
def felOf (x : PLab) : Option FEl :=
  match x.comp.fs with
  | some (.cell d) => some ⟨d, x.comp.lh.1⟩
  | _ => none

/-- The reference to a generated style goes first (ebutt3_ebuttd.py:114-119). -/
def addRef (nm : Rat → Name) (o : Option Rat) : Node Att → Node Att
  | .elem a kids => .elem { a with style := (o.map nm).toList ++ a.style } kids
  | n => n

/-- `_fix_fontsize` (ebutt3_ebuttd.py:70-119) for a converted child `k'` of `k`; only p and span are concerned. -/
def fixNode (nm : Rat → Name) (parent : PLab) (k : Node PLab) (k' : Node Att) (sh : Convert.Sheet) : Except WErr (Node Att × Convert.Sheet) :=
  match k with
  | .elem x _ =>
    match x.att.kind with
    | .p =>
      match felOf x with
      | none => .error .notCells
      | some f =>
        match fixFont ⟨none, 1⟩ f sh with
        | none => .error .zero
        | some (o, sh) => .ok (addRef nm o k', sh)
    | .span =>
      match felOf x, felOf parent with
      | some f, some p =>
        match fixFont p.fs f sh with
        | none => .error .zero
        | some (o, sh) => .ok (addRef nm o k', sh)
      | _, _ => .error .notCells
    | _ => .ok (k', sh)
  | _ => .ok (k', sh)

mutual
/-- `convert_element` of content (ebutt3_ebuttd.py:241-291, 352-354): the children, then the element. -/
def wconv (m : Media) (nm : Rat → Name) : Node PLab → Convert.Sheet → Except WErr (Node Att × Convert.Sheet)
  | .text s, sh => .ok (.text s, sh)
  | .br, sh => .ok (.br, sh)
  | .elem x kids, sh =>
    match wconvL m nm x kids sh with
    | .error e => .error e
    | .ok (ks, sh) =>
      match convAtt m x.att with
      | .error e => .error (.conv e)
      | .ok a => if ks.all (fitsD x.att.kind) then .ok (.elem a ks, sh) else .error (.conv .unrecognized)
/-- `convert_children` (ebutt3_ebuttd.py:322-350). -/
def wconvL (m : Media) (nm : Rat → Name) (parent : PLab) : List (Node PLab) → Convert.Sheet → Except WErr (List (Node Att) × Convert.Sheet)
  | [], sh => .ok ([], sh)
  | k :: ks, sh =>
    match wconv m nm k sh with
    | .error e => .error e
    | .ok (k', sh) =>
      match fixNode nm parent k k' sh with
      | .error e => .error e
      | .ok (k', sh) =>
        match wconvL m nm parent ks sh with
        | .error e => .error e
        | .ok (ks', sh) => .ok (k' :: ks', sh)
end

/-- A generated style (ebutt3_ebuttd.py:55-64, 110-113). -/
def autoDStyle (nm : Rat → Name) (a : Auto) : DStyle where
  id := nm a.id
  own := { fs := some (.pct ⟨none, a.size⟩), lh := a.lh.map .pct }

/-- The identifier of a generated style (`_font_size_style_template`, ebutt3_ebuttd.py:17, 50); `pr` prints a percentage. -/
def fontId (pr : Rat → List Char) (q : Rat) : Name := "autogenFontStyle_None_".toList ++ pr q

/-- `convert_tt` (ebutt3_ebuttd.py:130-144): head, body, then `_link_adjusted_fonts_styling` (:121-128). -/
def convertDoc (m : Media) (pr : Rat → List Char) (hd : Head) (res : Rat × Rat) (place : Name → List Char × List Char) (doc : Node PLab) :
    Except WErr DDoc :=
  match convRegions res place hd.regions with
  | .error e => .error e
  | .ok ds =>
    if hasDiv (forget doc) then
      match wconv m (fontId pr) doc [] with
      | .error e => .error e
      | .ok (out, sh) => .ok ⟨convStyles hd ++ sh.map (autoDStyle (fontId pr)), withDefaultRegion ds, some out⟩
    else .ok ⟨convStyles hd, withDefaultRegion ds, none⟩

end Verif.Convert
