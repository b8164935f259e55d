import Verif.Time.Model
import Verif.Style.Compute

/-!
# Size values

Reading of origins, extents, font sizes, line heights and the cell resolution: the patterns of
`/repo/ebu_tt_live/xsd/ebutt_datatypes.xsd:24-104, 113-132` and `ebutt_parameters.xsd`, and `TwoDimSizingMixin` with the
expressions of its classes (`/repo/ebu_tt_live/bindings/_ebuttdt.py:150-220, 439-495, 523-546, 591-598, 640-685`).

Simplifications: the numbers are exact rationals where the program uses floats; only the digits 0 to 9 count as digits;
the texts have their white space collapsed already (`xs:token`), so that the only white space is a space.
-/
namespace Verif.Size

open Verif.Time (isDig value)
open Verif.Style (Dim)

/-- The three units. -/
inductive Measure where
  | cell | px | pct
deriving DecidableEq, Repr

def Measure.text : Measure → List Char
  | .cell => ['c']
  | .px => ['p', 'x']
  | .pct => ['%']

/-- The captured `\d*\.?\d+` at the start of a text, as a number, and the rest.  What follows in every pattern is neither
a digit nor a dot, so the longest match is the only one that can succeed. -/
def number (l : List Char) : Option (Rat × List Char) :=
  match l.dropWhile isDig with
  | '.' :: r =>
    if r.takeWhile isDig = [] then
      if l.takeWhile isDig = [] then none else some ((value (l.takeWhile isDig) : Rat), '.' :: r)
    else some ((value (l.takeWhile isDig) : Rat) + (value (r.takeWhile isDig) : Rat) / 10 ^ (r.takeWhile isDig).length,
      r.dropWhile isDig)
  | r => if l.takeWhile isDig = [] then none else some ((value (l.takeWhile isDig) : Rat), r)

/-- An optional sign, outside of the captured group: `[+-]?` or `[+]?` (_ebuttdt.py:441, :470). -/
def dropSign (signs : List Char) : List Char → List Char
  | c :: l => if c ∈ signs then l else c :: l
  | [] => []

/-- A literal text at the start. -/
def after (u : List Char) (l : List Char) : Option (List Char) := if u.isPrefixOf l then some (l.drop u.length) else none

/-- One number with sign and unit. -/
def part (signs : List Char) (u : Measure) (l : List Char) : Option (Rat × List Char) :=
  match number (dropSign signs l) with
  | none => none
  | some (n, r) =>
    match after u.text r with
    | none => none
    | some r => some (n, r)

/-- Two numbers with a space between, to the end: the pattern of the type (origin: ebutt_datatypes.xsd:113-127, extent:
:24-37) and `as_tuple` (_ebuttdt.py:156-164). -/
def readPair (signs : List Char) (u : Measure) (l : List Char) : Option (Rat × Rat) :=
  match part signs u l with
  | some (h, ' ' :: r) =>
    match part signs u r with
    | some (v, []) => some (h, v)
    | _ => none
  | _ => none

/-- One or two numbers (ebutt_datatypes.xsd:46-67): `horizontal` and `vertical` (_ebuttdt.py:181-196); a single number is
the vertical size. -/
def readDim (signs : List Char) (u : Measure) (l : List Char) : Option Dim :=
  match part signs u l with
  | some (v, []) => some ⟨none, v⟩
  | some (h, ' ' :: r) =>
    match part signs u r with
    | some (v, []) => some ⟨some h, v⟩
    | _ => none
  | _ => none

/-- One number (ebutt_datatypes.xsd:83-97). -/
def readOne (u : Measure) (l : List Char) : Option Rat :=
  match part [] u l with
  | some (v, []) => some v
  | _ => none

/-- A union: the first member type that takes the text. -/
def union {α : Type} (f : Measure → Option α) : List Measure → Option (Measure × α)
  | [] => none
  | u :: us =>
    match f u with
    | some x => some (u, x)
    | none => union f us

/-- `originType` (ebutt_datatypes.xsd:128-132). -/
def readOrigin (l : List Char) : Option (Measure × Rat × Rat) := union (fun u => readPair ['+', '-'] u l) [.cell, .px, .pct]

/-- `extentType` (ebutt_datatypes.xsd:38-42). -/
def readExtent (l : List Char) : Option (Measure × Rat × Rat) := union (fun u => readPair ['+'] u l) [.cell, .pct, .px]

/-- `fontSizeType` (ebutt_datatypes.xsd:67-71). -/
def readFont (l : List Char) : Option (Measure × Dim) := union (fun u => readDim ['+'] u l) [.cell, .pct, .px]

/-- `lineHeightType` (ebutt_datatypes.xsd:98-106); the value `none` is `normal`. -/
def readLine (l : List Char) : Option (Option (Measure × Rat)) :=
  match union (fun u => readOne u l) [.pct, .cell, .px] with
  | some x => some (some x)
  | none => if l = "normal".toList then some none else none

/-- Digits, not all of them zero: `[0]*[1-9][0-9]*` (_ebuttdt.py:642). -/
def positive (l : List Char) : Option (Rat × List Char) :=
  if l.takeWhile isDig = [] ∨ value (l.takeWhile isDig) = 0 then none
  else some ((value (l.takeWhile isDig) : Rat), l.dropWhile isDig)

/-- `CellResolutionType` (_ebuttdt.py:640-646). -/
def readResolution (l : List Char) : Option (Rat × Rat) :=
  match positive l with
  | some (h, ' ' :: r) =>
    match positive r with
    | some (v, []) => some (h, v)
    | _ => none
  | _ => none

end Verif.Size
