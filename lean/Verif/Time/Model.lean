/-
Model of the time formats: `/repo/ebu_tt_live/bindings/_ebuttdt.py`
(`_get_time_members`, `TimecountTimingType`, `FullClockTimingType`, `LimitedClockTimingType`).

Conventions
* `timedelta` is an integer number of microseconds (`Int`).
* Text is a list of characters.  `re.match` is a prefix match; the regular expressions used here
  have a single way to match, written out below as parsers (`none` is the `AttributeError` of
  `None.groups()`).
* Python converts decimal numerals to `float` and `timedelta` rounds to a microsecond.  That
  conversion is a parameter (`Reader`) of the reading functions: theorems assume only that it is
  accurate to better than a microsecond on fractions and exact on whole numbers below 2^53.
-/
namespace Verif.Time

/-- The character of a decimal digit. -/
def dc (n : Nat) : Char := Char.ofNat (48 + n)

def isDig (c : Char) : Bool := decide (48 ≤ c.toNat ∧ c.toNat ≤ 57)

/-- `int(...)` of one digit. -/
def dval (c : Char) : Nat := c.toNat - 48

/-- Decimal digits of a number, with fuel. -/
def digsF : Nat → Nat → List Char
  | 0, _ => []
  | f + 1, n => if n < 10 then [dc n] else digsF f (n / 10) ++ [dc (n % 10)]

/-- `'{}'.format(n)` / `'{:d}'.format(n)` for a natural number. -/
def digs (n : Nat) : List Char := digsF (n + 1) n

/-- `int(text)` for a string of digits. -/
def value (l : List Char) : Nat := l.foldl (fun a c => 10 * a + dval c) 0

/-- `'{:0wd}'.format(n)` for a natural number. -/
def pad (w n : Nat) : List Char := List.replicate (w - (digs n).length) '0' ++ digs n

/-- `'{:0wd}'.format(n)`: zero padded to width `w`, the sign counting as one character. -/
def fmtInt (w : Nat) (n : Int) : List Char :=
  if n < 0 then '-' :: pad (w - 1) n.natAbs else pad w n.natAbs

/-- `_get_time_members` (_ebuttdt.py:19-24): hours, minutes, seconds, milliseconds.
`timedelta` keeps `days`, `0 ≤ seconds < 86400`, `0 ≤ microseconds < 1000000`. -/
def members (t : Int) : Int × Int × Int × Int :=
  let micros := t % 1000000
  let total := t / 1000000
  let secs := total % 86400
  let days := total / 86400
  let hours := secs / 3600 + days * 24
  let rest := secs % 3600
  (hours, rest / 60, rest % 60, micros / 1000)

/-- `FullClockTimingType.from_timedelta` (_ebuttdt.py:328-347); also the text produced by
`LimitedClockTimingType.from_timedelta` once the range check passed (391-403). -/
def writeFull (t : Int) : List Char :=
  let (h, m, s, ms) := members t
  if ms ≠ 0 then
    fmtInt 2 h ++ ':' :: fmtInt 2 m ++ ':' :: fmtInt 2 s ++ '.' :: fmtInt 3 ms
  else
    fmtInt 2 h ++ ':' :: fmtInt 2 m ++ ':' :: fmtInt 2 s

/-- `LimitedClockTimingType.from_timedelta` (_ebuttdt.py:381-403); `none` is
`TimeFormatOverflowError`. -/
def writeLimited (t : Int) : Option (List Char) :=
  if (members t).1 > 99 then none else some (writeFull t)

/-- `TimecountTimingType.from_timedelta` (_ebuttdt.py:258-291).  The unit starts as Python's
`None`, which `'{}{}'.format` prints as `None`. -/
def writeCount (t : Int) : List Char :=
  if t = 0 then ['0', 's']
  else
    let (h, m, s, ms) := members t
    let (unit, num, mul) : Option (List Char) × Int × Int :=
      if ms ≠ 0 then (some ['m', 's'], ms, 1000) else (none, 0, 1)
    let (unit, num, mul) : Option (List Char) × Int × Int :=
      if unit.isSome ∨ s ≠ 0 then (some (unit.getD ['s']), num + s * mul, mul * 60) else (unit, num, mul)
    let (unit, num, mul) : Option (List Char) × Int × Int :=
      if unit.isSome ∨ m ≠ 0 then (some (unit.getD ['m']), num + m * mul, mul * 60) else (unit, num, mul)
    let (unit, num) : Option (List Char) × Int :=
      if unit.isSome ∨ h ≠ 0 then (some (unit.getD ['h']), num + h * mul) else (unit, num)
    fmtInt 1 num ++ unit.getD ['N', 'o', 'n', 'e']

/-- How Python turns numerals into microseconds (`float` parsing, multiplication and the rounding
of the `timedelta` constructor). -/
structure Reader where
  /-- `timedelta(milliseconds=float('0.' + ds) * 1000)` -/
  frac : List Char → Int
  /-- `timedelta(unit=float(whole + '.' + ds))`, `factor` being the unit in microseconds -/
  num : List Char → List Char → Int → Int

/-- The accuracy assumed of `float`: fractions are read to within a microsecond, whole numbers
below 2^53 exactly. -/
structure Reader.Accurate (rd : Reader) : Prop where
  frac : ∀ ds, ds.all isDig = true → ds ≠ [] →
    (value ds : Int) * 1000000 - 10 ^ ds.length < rd.frac ds * 10 ^ ds.length ∧
    rd.frac ds * 10 ^ ds.length < (value ds : Int) * 1000000 + 10 ^ ds.length
  num : ∀ ds f, ds.all isDig = true → ds ≠ [] → value ds < 2 ^ 53 → rd.num ds [] f = value ds * f

/-- The part of the clock expressions after the hours: `:([0-5][0-9]):([0-5][0-9]|60)(?:\.([0-9]+))?`
(_ebuttdt.py:307, 363): minutes, seconds and fraction digits (empty if absent). -/
def parseRest : List Char → Option (Nat × Nat × List Char)
  | c1 :: m1 :: m2 :: c2 :: s1 :: s2 :: tail =>
    if c1 = ':' ∧ c2 = ':' ∧ isDig m1 = true ∧ dval m1 ≤ 5 ∧ isDig m2 = true ∧
        (isDig s1 = true ∧ dval s1 ≤ 5 ∧ isDig s2 = true ∨ s1 = '6' ∧ s2 = '0') then
      let fr := match tail with
        | '.' :: f => f.takeWhile isDig
        | _ => []
      some (10 * dval m1 + dval m2, 10 * dval s1 + dval s2, fr)
    else none
  | _ => none

/-- The `timedelta` built from the matched groups (_ebuttdt.py:321-325, 373-377).  An absent
fraction gives `0`. -/
def clockDelta (rd : Reader) (h : Nat) (r : Nat × Nat × List Char) : Int :=
  (h : Int) * 3600000000 + (r.1 : Int) * 60000000 + (r.2.1 : Int) * 1000000 +
    (if r.2.2 = [] then 0 else rd.frac r.2.2)

/-- `FullClockTimingType.as_timedelta` (_ebuttdt.py:314-325): hours are `[0-9][0-9]+`. -/
def readFull (rd : Reader) (text : List Char) : Option Int :=
  let h := text.takeWhile isDig
  if h.length < 2 then none
  else (parseRest (text.dropWhile isDig)).map (clockDelta rd (value h))

/-- `LimitedClockTimingType.as_timedelta` (_ebuttdt.py:366-377): hours are `[0-9][0-9]`. -/
def readLimited (rd : Reader) (text : List Char) : Option Int :=
  match text with
  | h1 :: h2 :: rest =>
    if isDig h1 = true ∧ isDig h2 = true then
      (parseRest rest).map (clockDelta rd (10 * dval h1 + dval h2))
    else none
  | _ => none

/-- The unit alternatives of the timecount expression, in order (_ebuttdt.py:229), with their
length in microseconds (_ebuttdt.py:246-253). -/
def parseUnit : List Char → Option Int
  | 'h' :: _ => some 3600000000
  | 'm' :: 's' :: _ => some 1000
  | 's' :: _ => some 1000000
  | 'm' :: _ => some 60000000
  | _ => none

/-- `TimecountTimingType.as_timedelta` (_ebuttdt.py:238-255): `[0-9]+(?:\.[0-9]+)?` then the unit. -/
def readCount (rd : Reader) (text : List Char) : Option Int :=
  let whole := text.takeWhile isDig
  let rest := text.dropWhile isDig
  if whole = [] then none
  else
    match rest with
    | '.' :: more =>
      let fr := more.takeWhile isDig
      if fr = [] then none else (parseUnit (more.dropWhile isDig)).map (rd.num whole fr)
    | _ => (parseUnit rest).map (rd.num whole [])

end Verif.Time
