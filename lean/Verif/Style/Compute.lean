import Verif.Style.OrderProps

/-
Model of style computation: `style_type.add`, `resolve_styles`, `compute_font_size`, `set_default_value`,
`compute_inherited_attribute`, `compute_simple_attribute`, `compute_line_height` and `compute_style`
(`/repo/ebu_tt_live/bindings/__init__.py:171-417`), with `PercentageFontSizeType.do_mul`,
`PercentageLineHeightType.do_mul` and `pixels_to_cells`
(`/repo/ebu_tt_live/bindings/_ebuttdt.py:598-635, 663-667, 108-115`).

Simplifications: sizes are exact rationals where the program uses floats; attribute values other than
sizes are texts.
-/
namespace Verif.Style

abbrev Val := List Char

/-- The attributes that are not inherited (`_simple_attr_defaults`, bindings/__init__.py:84-88). -/
inductive SAttr where
  | backgroundColor | padding | unicodeBidi
deriving DecidableEq, Repr

/-- The inherited attributes (`_inherited_attr_defaults`, bindings/__init__.py:89-100). -/
inductive IAttr where
  | color | direction | fontFamily | fontStyle | fontWeight | linePadding | multiRowAlign | textAlign
  | textDecoration | wrapOption
deriving DecidableEq, Repr

def SAttr.default : SAttr → Val
  | .backgroundColor => "transparent".toList
  | .padding => "0px".toList
  | .unicodeBidi => "normal".toList

/-- The default of `color` is `None`. -/
def IAttr.default : IAttr → Option Val
  | .color => none
  | .direction => some "ltr".toList
  | .fontFamily => some "default".toList
  | .fontStyle => some "normal".toList
  | .fontWeight => some "normal".toList
  | .linePadding => some "0c".toList
  | .multiRowAlign => some "auto".toList
  | .textAlign => some "start".toList
  | .textDecoration => some "none".toList
  | .wrapOption => some "wrap".toList

/-- A size in one or two dimensions (`TwoDimSizingMixin`): `horizontal` may be missing. -/
structure Dim where
  h : Option Rat
  v : Rat
deriving DecidableEq, Repr

/-- A font size with its unit. -/
inductive FS where
  | pct (d : Dim)
  | cell (d : Dim)
  | px (d : Dim)
deriving DecidableEq, Repr

/-- A line height. -/
inductive LH where
  | normal
  | pct (v : Rat)
  | cell (v : Rat)
  | px (v : Rat)
deriving DecidableEq, Repr

/-- What `pixels_to_cells` needs of the document: cells per pixel in the two directions, that is
`cellResolution / extent` (_ebuttdt.py:108-115). -/
structure Geometry where
  kh : Rat
  kv : Rat

/-- The attributes of a style, or of the resolution of several (`specified_style`). -/
structure Specified where
  simple : SAttr → Option Val := fun _ => none
  inh : IAttr → Option Val := fun _ => none
  fs : Option FS := none
  lh : Option LH := none

/-- A computed style: inherited attributes and the line height with the mark that they hold the default
value (`default_attrs`, bindings/__init__.py:275-286). -/
structure Computed where
  simple : SAttr → Val
  inh : IAttr → Option Val × Bool
  fs : Option FS
  lh : LH × Bool

/-- `add` (bindings/__init__.py:171-202): what is set stays. -/
def add (a b : Specified) : Specified where
  simple := fun x => (a.simple x).or (b.simple x)
  inh := fun x => (a.inh x).or (b.inh x)
  fs := a.fs.or b.fs
  lh := a.lh.or b.lh

/-- `resolve_styles` (bindings/__init__.py:205-214). -/
def resolve (own : Name → Specified) (l : List Name) : Specified :=
  l.foldl (fun s x => add s (own x)) {}

/-- `PercentageFontSizeType.do_mul` on the numbers (_ebuttdt.py:608-629). -/
def scaleDim (p q : Dim) : Dim :=
  match p.h, q.h with
  | some ph, some qh => ⟨some (qh * ph / 100), q.v * p.v / 100⟩
  | some ph, none => ⟨some (q.v * ph / 100), q.v * p.v / 100⟩
  | none, some qh => ⟨some (qh * p.v / 100), q.v * p.v / 100⟩
  | none, none => ⟨none, q.v * p.v / 100⟩

/-- A percentage times a font size: the result has the unit of the font size (_ebuttdt.py:599-606). -/
def scale (p : Dim) : FS → FS
  | .pct q => .pct (scaleDim p q)
  | .cell q => .cell (scaleDim p q)
  | .px q => .px (scaleDim p q)

/-- `CellFontSizeType('1c')` (bindings/__init__.py:219). -/
def defaultFS : FS := .cell ⟨none, 1⟩

/-- "We cannot defer any longer" (bindings/__init__.py:238-240, 258-260). -/
def settle (defer : Bool) : FS → FS
  | .pct d => if defer then .pct d else scale d defaultFS
  | x => x

/-- `pixels_to_cells` (_ebuttdt.py:108-115). -/
def toCells (g : Geometry) (d : Dim) : Dim :=
  match d.h with
  | some h => ⟨some (h * g.kh), d.v * g.kv⟩
  | none => ⟨none, d.v * g.kv⟩

/-- `compute_font_size` (bindings/__init__.py:217-272).  `parent` and `region` are the font sizes of the
parent's and the region's computed style; `hasRegion` tells whether there is a region. -/
def fontSize (g : Geometry) (spec parent region : Option FS) (hasRegion defer : Bool) : Option FS :=
  let result : Option FS :=
    match spec with
    | some (.pct p) =>
      some (settle defer (match parent with
        | some pf => scale p pf
        | none =>
          match region with
          | some rf => scale p rf
          | none => if !hasRegion && defer then .pct p else scale p defaultFS))
    | some x => some x
    | none =>
      match parent with
      | none => region
      | some (.pct p) =>
        some (settle defer (match region with
          | some rf => scale p rf
          | none => .pct p))
      | some pf => some pf
  match result with
  | some (.px d) => some (.cell (toCells g d))
  | some x => some x
  | none => if defer then none else some defaultFS

/-- The value of an inherited attribute that is not merely the default. -/
def Computed.real (c : Computed) (x : IAttr) : Option Val := if (c.inh x).2 then none else (c.inh x).1

/-- `compute_inherited_attribute` (bindings/__init__.py:309-316). -/
def inherited (x : IAttr) (spec : Specified) (parent region : Option Computed) : Option Val :=
  match spec.inh x with
  | some v => some v
  | none =>
    match parent.bind (·.real x) with
    | some v => some v
    | none => region.bind (·.real x)

/-- The line height of a computed style unless it is the default. -/
def Computed.realLH (c : Computed) : Option LH := if c.lh.2 then none else some c.lh.1

/-- `compute_line_height` (bindings/__init__.py:327-346). -/
def lineHeight (g : Geometry) (spec : Option LH) (parent region : Option LH) (fs : Option FS) : Option LH :=
  ((spec.or parent).or region).map (fun
    | .px v => .cell (v * g.kv)
    | .pct v =>
      match fs with
      | some (.cell d) => .cell (v * d.v / 100)
      | _ => .pct v
    | x => x)

/-- `set_default_value` for a value that could not be found (bindings/__init__.py:288-306, 349-417): the
default with its mark. -/
def orDefault (x : IAttr) : Option Val → Option Val × Bool
  | some v => (some v, false)
  | none => (x.default, true)

/-- `compute_style` (bindings/__init__.py:349-417). -/
def compute (g : Geometry) (spec : Specified) (parent region : Option Computed) (defer : Bool) : Computed :=
  let fs := fontSize g spec.fs (parent.bind (·.fs)) (region.bind (·.fs)) region.isSome defer
  { simple := fun x => (spec.simple x).getD x.default
    inh := fun x => orDefault x (inherited x spec parent region)
    fs := fs
    lh :=
      match lineHeight g spec.lh (parent.bind (·.realLH)) (region.bind (·.realLH)) fs with
      | some v => (v, false)
      | none => (.normal, true) }

end Verif.Style
