import Verif.Style.Compute

/-
Model of the font size part of the conversion to EBU-TT-D: `_get_font_size_style`, `_fix_fontsize`,
`_link_adjusted_fonts_styling` and their place in `convert_children`
(`/repo/ebu_tt_live/bindings/converters/ebutt3_ebuttd.py:43-128, 322-350`), with `CellFontSizeType._do_div` and `_do_eq`
(`/repo/ebu_tt_live/bindings/_ebuttdt.py:545-585`).

Simplifications: sizes are exact rationals where the program uses floats, so that the identifier of a generated style, made
of the printed percentage, is represented by the percentage itself (Python prints twelve digits of it); only what a p and its
spans contribute is kept of the tree, since a span in a span cannot be converted (`Verif.Convert.conv`).
-/
namespace Verif.Convert

open Verif.Style

/-- The computed font size, in cells, and line height of a p or span (`elem.computed_style`). -/
structure FEl where
  fs : Dim
  lh : LH

/-- A p with its spans. -/
structure FP where
  el : FEl
  spans : List FEl

/-- A generated style: its identifier, font size and line height in percent. -/
structure Auto where
  id : Rat
  size : Rat
  lh : Option Rat
deriving DecidableEq

/-- `adjusted_sizing_styles` (ebutt3_ebuttd.py:18, 40-41). -/
abbrev Sheet := List Auto

def Sheet.get (sh : Sheet) (k : Rat) : Option Auto := sh.find? (fun a => decide (a.id = k))

/-- `CellFontSizeType._do_eq` (_ebuttdt.py:566-578). -/
def eqDim (a b : Dim) : Bool :=
  match a.h, b.h with
  | none, none => decide (a.v = b.v)
  | none, some bh => decide (a.v = b.v) && decide (a.v = bh)
  | some ah, none => decide (a.v = b.v) && decide (ah = b.v)
  | some ah, some bh => decide (a.v = b.v) && decide (ah = bh)

/-- `CellFontSizeType._do_div` (_ebuttdt.py:545-559): the vertical part; `none` is `ZeroDivisionError`. -/
def divDim (a b : Dim) : Option Rat :=
  if b.v = 0 then none
  else if b.h = some 0 then none
  else some (a.v / b.v * 100)

/-- `_get_font_size_style` (ebutt3_ebuttd.py:43-68) without horizontal size, as it is always called. -/
def autoStyle (sh : Sheet) (k : Rat) : Sheet :=
  match sh.get k with
  | some _ => sh
  | none => sh ++ [⟨k, k, none⟩]

/-- `adjusted_style.lineHeight = …` (ebutt3_ebuttd.py:110-113). -/
def setLh (sh : Sheet) (k l : Rat) : Sheet := sh.map (fun a => if a.id = k then { a with lh := some l } else a)

/-- `_fix_fontsize` (ebutt3_ebuttd.py:70-119): `ref` is the default size for a p and the size of the parent for a span.
The generated style referred to first, if any, and the styles; `none` is `ZeroDivisionError`. -/
def fixFont (ref : Dim) (x : FEl) (sh : Sheet) : Option (Option Rat × Sheet) :=
  if eqDim ref x.fs then some (none, sh)
  else
    match divDim x.fs ref with
    | none => none
    | some k =>
      let sh := autoStyle sh k
      match x.lh with
      | .cell l => if x.fs.v = 0 then none else some (some k, setLh sh k (l / x.fs.v * 100))
      | _ => some (some k, sh)

/-- The spans of a p in order. -/
def fixSpans (ref : Dim) : List FEl → Sheet → Option (List (Option Rat) × Sheet)
  | [], sh => some ([], sh)
  | x :: xs, sh =>
    match fixFont ref x sh with
    | none => none
    | some (o, sh) =>
      match fixSpans ref xs sh with
      | none => none
      | some (os, sh) => some (o :: os, sh)

/-- A p: its spans while it is converted, then itself (ebutt3_ebuttd.py:333-347). -/
def fixP (p : FP) (sh : Sheet) : Option ((Option Rat × List (Option Rat)) × Sheet) :=
  match fixSpans p.el.fs p.spans sh with
  | none => none
  | some (os, sh) =>
    match fixFont ⟨none, 1⟩ p.el sh with
    | none => none
    | some (o, sh) => some ((o, os), sh)

/-- A document: its p elements in order. -/
def fixDoc : List FP → Sheet → Option (List (Option Rat × List (Option Rat)) × Sheet)
  | [], sh => some ([], sh)
  | p :: ps, sh =>
    match fixP p sh with
    | none => none
    | some (o, sh) =>
      match fixDoc ps sh with
      | none => none
      | some (os, sh) => some (o :: os, sh)

end Verif.Convert
