import Verif.Time.Props

/-!
Which time formats are accepted under which time base (C50): model and theorems.

Models `/repo/ebu_tt_live/bindings/_ebuttdt.py` (`_TimedeltaBindingMixin._ConvertArguments_vx` and the
`_compatible_timebases` tables), the unions and patterns of `/repo/ebu_tt_live/xsd/ebutt_datatypes.xsd`,
`tt_type.get_timing_type` and `_semantic_timebase_validation`.
-/
namespace Verif.Time

/-- `ttp:timeBase` values. -/
inductive TimeBase where
  | clock | media | smpte
deriving DecidableEq, Repr

/-- The classes a timing value can be an instance of. -/
inductive TimeType where
  | timecount | fullClock | limitedClock | smpte
deriving DecidableEq, Repr

/-- The timing attributes. -/
inductive TimeAttr where
  | begin | dur | «end»
deriving DecidableEq, Repr

/-- `_compatible_timebases` (_ebuttdt.py:231-235, 302-306, 358-362, 418-422). -/
def compatible : TimeType → TimeAttr → List TimeBase
  | .timecount, .begin => [.clock, .media]
  | .timecount, .dur => [.clock, .media]
  | .timecount, .end => [.clock, .media]
  | .fullClock, .begin => [.media]
  | .fullClock, .dur => [.media]
  | .fullClock, .end => [.media]
  | .limitedClock, .begin => [.clock]
  | .limitedClock, .dur => [.clock]
  | .limitedClock, .end => [.clock]
  | .smpte, .begin => [.smpte]
  | .smpte, .dur => [.smpte]
  | .smpte, .end => [.smpte]

/-- `(\.[0-9]+)?` up to the end of the text. -/
def optFrac : List Char → Bool
  | [] => true
  | '.' :: f => decide (f ≠ []) && f.all isDig
  | _ => false

/-- `:[0-5][0-9]:([0-5][0-9]|60)(\.[0-9]+)?` anchored at the end (ebutt_datatypes.xsd:175, 180). -/
def clockTail : List Char → Bool
  | c1 :: m1 :: m2 :: c2 :: s1 :: s2 :: tail =>
    decide (c1 = ':' ∧ c2 = ':' ∧ isDig m1 = true ∧ dval m1 ≤ 5 ∧ isDig m2 = true ∧
      (isDig s1 = true ∧ dval s1 ≤ 5 ∧ isDig s2 = true ∨ s1 = '6' ∧ s2 = '0')) && optFrac tail
  | _ => false

/-- The unit at the end of a timecount. -/
def isUnit (l : List Char) : Bool :=
  decide (l = ['h'] ∨ l = ['m', 's'] ∨ l = ['s'] ∨ l = ['m'])

/-- The `xs:pattern` of each type (ebutt_datatypes.xsd:150, 165, 175, 180). -/
def pattern : TimeType → List Char → Bool
  | .fullClock, text => decide (2 ≤ (text.takeWhile isDig).length) && clockTail (text.dropWhile isDig)
  | .limitedClock, h1 :: h2 :: rest => isDig h1 && isDig h2 && clockTail rest
  | .limitedClock, _ => false
  | .timecount, text =>
    decide (text.takeWhile isDig ≠ []) &&
      (match text.dropWhile isDig with
        | '.' :: more => decide (more.takeWhile isDig ≠ []) && isUnit (more.dropWhile isDig)
        | u => isUnit u)
  | .smpte, [h1, h2, c1, m1, m2, c2, s1, s2, c3, f1, f2] =>
    decide (c1 = ':' ∧ c2 = ':' ∧ c3 = ':') && [h1, h2, m1, m2, s1, s2, f1, f2].all isDig &&
      decide (10 * dval h1 + dval h2 ≤ 23 ∧ dval m1 ≤ 5 ∧ dval s1 ≤ 5)
  | .smpte, _ => false

/-- The member types of the attribute's union, in the order they are tried
(ebutt_datatypes.xsd:140-147, 157-162; the nested unions are flattened). -/
def members' : TimeAttr → List TimeType
  | .dur => [.limitedClock, .timecount, .timecount, .fullClock]
  | _ => [.smpte, .timecount, .fullClock, .limitedClock, .timecount]

/-- Parsing an attribute value: PyXB instantiates the first member type that takes it; a type
refuses when the time base is not in its table (_ebuttdt.py:61-84) or the pattern does not match.
`none` is the `SimpleTypeValueError` of the union. -/
def parseTiming (base : TimeBase) (attr : TimeAttr) (text : List Char) : Option TimeType :=
  (members' attr).find? (fun ty => decide (base ∈ compatible ty attr) && pattern ty text)

/-- `value.timedelta`: `as_timedelta` of the class of the value.  `SMPTETimingType.as_timedelta`
always returns zero (_ebuttdt.py:425-427). -/
def readAs (rd : Reader) : TimeType → List Char → Option Int
  | .timecount, text => readCount rd text
  | .fullClock, text => readFull rd text
  | .limitedClock, text => readLimited rd text
  | .smpte, _ => some 0

/-- `tt_type.get_timing_type` (bindings/__init__.py:648-654) for the class of the value it makes. -/
def timingTypeOf : TimeBase → TimeType
  | .clock => .limitedClock
  | .media => .fullClock
  | .smpte => .smpte

/-- A tree of timed elements, with the class of each timing attribute present. -/
inductive VTree where
  | node (begin dur «end» : Option TimeType) (kids : List VTree)

/-- `_semantic_timebase_validation` (validation/timing.py:234-261, 363-380) for one attribute:
`false` is the `SemanticValidationError`. -/
def attrOk (base : TimeBase) (attr : TimeAttr) : Option TimeType → Bool
  | none => true
  | some ty => decide (base ∈ compatible ty attr)

mutual
/-- The check made on the way down on every timed element (bindings/__init__.py `_semantic_before_traversal`
of body, div, p and span). -/
def validateBases (base : TimeBase) : VTree → Bool
  | .node b d e kids =>
    attrOk base .begin b && attrOk base .end e && attrOk base .dur d && validateBasesL base kids
def validateBasesL (base : TimeBase) : List VTree → Bool
  | [] => true
  | k :: ks => validateBases base k && validateBasesL base ks
end

/-! ### Specification -/

/-- The table of the property: which formats a time base permits. -/
def Permitted (base : TimeBase) (ty : TimeType) : Prop :=
  match ty with
  | .fullClock => base = .media
  | .limitedClock => base = .clock
  | .smpte => base = .smpte
  | .timecount => base = .clock ∨ base = .media

/-- `ty` is the class of some timing value in the tree. -/
inductive Occurs : TimeType → VTree → Prop
  | begin {ty d e kids} : Occurs ty (.node (some ty) d e kids)
  | dur {ty b e kids} : Occurs ty (.node b (some ty) e kids)
  | «end» {ty b d kids} : Occurs ty (.node b d (some ty) kids)
  | child {ty b d e kids k} : k ∈ kids → Occurs ty k → Occurs ty (.node b d e kids)

theorem mem_compatible (base : TimeBase) (ty : TimeType) (attr : TimeAttr) :
    base ∈ compatible ty attr ↔ Permitted base ty := by
  cases ty <;> cases attr <;> cases base <;> simp [compatible, Permitted]

/-- C50, parsing: a value is read in a format only if the time base permits the format and the text
has that format; and it is refused only if no permitted format (of those the attribute's schema type
offers: `dur` has no SMPTE) fits. -/
theorem C50_parsed_format_is_permitted (base : TimeBase) (attr : TimeAttr) (text : List Char) :
    (∀ ty, parseTiming base attr text = some ty → Permitted base ty ∧ pattern ty text = true) ∧
    (parseTiming base attr text = none →
      ∀ ty, Permitted base ty → (attr = .dur → ty ≠ .smpte) → pattern ty text = false) := by
  constructor
  · intro ty h
    have h1 := List.find?_some h
    simp only [Bool.and_eq_true, decide_eq_true_eq] at h1
    exact ⟨(mem_compatible base ty attr).mp h1.1, h1.2⟩
  · intro h ty hp hd
    have h1 := List.find?_eq_none.mp h
    have hm : ty ∈ members' attr := by
      cases attr <;> cases ty <;> simp [members'] at hd ⊢
    have h2 := h1 ty hm
    simp only [Bool.and_eq_true, decide_eq_true_eq, not_and, Bool.not_eq_true] at h2
    exact h2 ((mem_compatible base ty attr).mpr hp)

example : parseTiming .media .begin "10:00:00".toList = some .fullClock ∧
    parseTiming .clock .begin "10:00:00".toList = some .limitedClock ∧
    parseTiming .clock .begin "100:00:00".toList = none ∧
    parseTiming .media .begin "1.5s".toList = some .timecount := by decide

theorem clockTail_parse {l : List Char} (h : clockTail l = true) : ∃ r, parseRest l = some r := by
  match l, h with
  | c1 :: m1 :: m2 :: c2 :: s1 :: s2 :: tail, h =>
    simp only [clockTail, Bool.and_eq_true, decide_eq_true_eq] at h
    exact ⟨_, by simp only [parseRest]; rw [if_pos h.1]⟩
  | [], h | [_], h | [_, _], h | [_, _, _], h | [_, _, _, _], h | [_, _, _, _, _], h => simp [clockTail] at h

theorem isUnit_parse {u : List Char} (h : isUnit u = true) : ∃ f, parseUnit u = some f := by
  simp only [isUnit, decide_eq_true_eq] at h
  rcases h with h | h | h | h <;> subst h <;> exact ⟨_, rfl⟩

/-- C50, reading: a value accepted by the parser always converts to a time; the conversion never
fails on a parsed document. -/
theorem C50_accepted_values_are_readable (rd : Reader) (base : TimeBase) (attr : TimeAttr)
    (text : List Char) (ty : TimeType) (h : parseTiming base attr text = some ty) :
    ∃ t, readAs rd ty text = some t := by
  have hp := ((C50_parsed_format_is_permitted base attr text).1 ty h).2
  cases ty with
  | smpte => exact ⟨0, rfl⟩
  | fullClock =>
    simp only [pattern, Bool.and_eq_true, decide_eq_true_eq] at hp
    obtain ⟨r, hr⟩ := clockTail_parse hp.2
    simp only [readAs, readFull]
    rw [if_neg (by omega), hr]
    exact ⟨_, rfl⟩
  | limitedClock =>
    match text, hp with
    | [], hp | [_], hp => simp [pattern] at hp
    | h1 :: h2 :: rest, hp =>
      simp only [pattern, Bool.and_eq_true] at hp
      obtain ⟨r, hr⟩ := clockTail_parse hp.2
      simp only [readAs, readLimited]
      rw [if_pos hp.1, hr]
      exact ⟨_, rfl⟩
  | timecount =>
    simp only [pattern, Bool.and_eq_true, decide_eq_true_eq] at hp
    obtain ⟨h1, h2⟩ := hp
    simp only [readAs, readCount]
    rw [if_neg h1]
    generalize text.dropWhile isDig = rest at h2 ⊢
    revert h2
    split
    · rename_i more
      intro h2
      simp only [Bool.and_eq_true, decide_eq_true_eq] at h2
      obtain ⟨f, hf⟩ := isUnit_parse h2.2
      simp only
      rw [if_neg h2.1, hf]
      exact ⟨_, rfl⟩
    · rename_i hne
      intro h2
      obtain ⟨f, hf⟩ := isUnit_parse h2
      split
      · exact absurd rfl (hne _)
      · rw [hf]
        exact ⟨_, rfl⟩

example : parseTiming .media .end "12:34:56.789".toList = some .fullClock ∧
    readAs exactReader .fullClock "12:34:56.789".toList = some 45296789000 := by decide

/-! ### Only these formats are read, and what they mean -/

/-- `hh:mm:ss` or `hh:mm:ss.fff`. -/
def clockText (hh mm ss fr : List Char) : List Char :=
  hh ++ ':' :: (mm ++ ':' :: (ss ++ if fr = [] then [] else '.' :: fr))

/-- The parts of a clock time: digits, minutes below sixty, seconds up to sixty. -/
def ClockParts (hh mm ss fr : List Char) : Prop :=
  hh.all isDig = true ∧ Sixty mm ∧ (ss.length = 2 ∧ ss.all isDig = true ∧ value ss ≤ 60) ∧ fr.all isDig = true

/-- Hours, minutes, seconds and a fraction in microseconds, the fraction to within a microsecond. -/
def ClockMeans (hh mm ss fr : List Char) (t : Int) : Prop :=
  ∃ f : Int, t = ((value hh : Int) * 3600 + value mm * 60 + value ss) * 1000000 + f ∧ (fr = [] → f = 0) ∧
    (fr ≠ [] → (value fr : Int) * 1000000 - 10 ^ fr.length < f * 10 ^ fr.length ∧
      f * 10 ^ fr.length < (value fr : Int) * 1000000 + 10 ^ fr.length)

theorem value_two (a b : Char) : value [a, b] = 10 * dval a + dval b := by simp [value]

theorem parseRest_some {l : List Char} {r : Nat × Nat × List Char} (h : parseRest l = some r) :
    ∃ mm ss rest, l = ':' :: (mm ++ ':' :: (ss ++ if r.2.2 = [] then [] else '.' :: r.2.2)) ++ rest ∧ Sixty mm ∧
      (ss.length = 2 ∧ ss.all isDig = true ∧ value ss ≤ 60) ∧ r.2.2.all isDig = true ∧ value mm = r.1 ∧ value ss = r.2.1 := by
  match l, h with
  | c1 :: m1 :: m2 :: c2 :: s1 :: s2 :: tail, h =>
    simp only [parseRest] at h
    split at h
    · rename_i hc
      obtain ⟨rfl, rfl, h1, h2, h3, h4⟩ := hc
      have hd9 : ∀ c, isDig c = true → dval c ≤ 9 := by
        intro c hc
        simp only [isDig, decide_eq_true_eq, Bool.and_eq_true] at hc
        have := hc.2
        have h' : c.toNat ≤ 57 := this
        simp only [dval]
        have : '0'.toNat = 48 := rfl
        omega
      have hs : [s1, s2].length = 2 ∧ [s1, s2].all isDig = true ∧ value [s1, s2] ≤ 60 := by
        rcases h4 with ⟨a, b, c⟩ | ⟨a, b⟩
        · refine ⟨rfl, by simp [a, c], ?_⟩
          have := hd9 s2 c
          rw [value_two]; omega
        · rw [a, b]; decide
      have hm : Sixty [m1, m2] := by
        refine ⟨rfl, by simp [h1, h3], ?_⟩
        have := hd9 m2 h3
        rw [value_two]; omega
      have fin : ∀ fr rest, tail = (if fr = [] then [] else '.' :: fr) ++ rest → fr.all isDig = true →
          some (10 * dval m1 + dval m2, 10 * dval s1 + dval s2, fr) = some r →
          ∃ mm ss rest, ':' :: m1 :: m2 :: ':' :: s1 :: s2 :: tail =
              ':' :: (mm ++ ':' :: (ss ++ if r.2.2 = [] then [] else '.' :: r.2.2)) ++ rest ∧ Sixty mm ∧
            (ss.length = 2 ∧ ss.all isDig = true ∧ value ss ≤ 60) ∧ r.2.2.all isDig = true ∧ value mm = r.1 ∧ value ss = r.2.1 := by
        intro fr rest ht hf he
        injection he with he
        rw [← he]
        exact ⟨[m1, m2], [s1, s2], rest, by rw [ht]; simp, hm, hs, hf, value_two _ _, value_two _ _⟩
      revert h
      split
      · rename_i f
        intro h
        by_cases hf : f.takeWhile isDig = []
        · exact fin (f.takeWhile isDig) ('.' :: f) (by rw [hf]; simp) (by rw [hf]; rfl) h
        · refine fin (f.takeWhile isDig) (f.dropWhile isDig) ?_ (by simp) h
          rw [if_neg hf, List.cons_append, List.takeWhile_append_dropWhile]
      · intro h
        exact fin [] tail (by simp) rfl h
    · cases h
  | [], h | [_], h | [_, _], h | [_, _, _], h | [_, _, _, _], h | [_, _, _, _, _], h => simp [parseRest] at h

theorem clockDelta_means {rd : Reader} (hrd : rd.Accurate) {hh mm ss : List Char} {r : Nat × Nat × List Char}
    (h1 : value mm = r.1) (h2 : value ss = r.2.1) (h3 : r.2.2.all isDig = true) :
    ClockMeans hh mm ss r.2.2 (clockDelta rd (value hh) r) := by
  refine ⟨if r.2.2 = [] then 0 else rd.frac r.2.2, ?_, ?_, ?_⟩
  · unfold clockDelta; rw [h1, h2]; omega
  · intro h; rw [if_pos h]
  · intro h; rw [if_neg h]; exact hrd.frac _ h3 h

/-- C50, reading: what is read as a clock time begins with `hh:mm:ss` or `hh:mm:ss.fff`, with two or more digits
for the hours (two, in the limited format), and is the time that says. -/
theorem C50_clock_times_read (rd : Reader) (hrd : rd.Accurate) (text : List Char) (t : Int) :
    (readAs rd .fullClock text = some t → ∃ hh mm ss fr rest, text = clockText hh mm ss fr ++ rest ∧ 2 ≤ hh.length ∧
      ClockParts hh mm ss fr ∧ ClockMeans hh mm ss fr t) ∧
    (readAs rd .limitedClock text = some t → ∃ hh mm ss fr rest, text = clockText hh mm ss fr ++ rest ∧ hh.length = 2 ∧
      ClockParts hh mm ss fr ∧ ClockMeans hh mm ss fr t) := by
  constructor
  · intro h
    simp only [readAs, readFull] at h
    split at h
    · cases h
    · rename_i hl
      rw [Option.map_eq_some_iff] at h
      obtain ⟨r, hr, ht⟩ := h
      obtain ⟨mm, ss, rest, e, hm, hs, hf, v1, v2⟩ := parseRest_some hr
      refine ⟨text.takeWhile isDig, mm, ss, r.2.2, rest, ?_, by omega, ⟨by simp, hm, hs, hf⟩, ?_⟩
      · rw [clockText, List.append_assoc, ← e, List.takeWhile_append_dropWhile]
      · rw [← ht]; exact clockDelta_means hrd v1 v2 hf
  · intro h
    match text, h with
    | [], h | [_], h => simp [readAs, readLimited] at h
    | h1 :: h2 :: tail, h =>
      simp only [readAs, readLimited] at h
      split at h
      · rename_i hd
        rw [Option.map_eq_some_iff] at h
        obtain ⟨r, hr, ht⟩ := h
        obtain ⟨mm, ss, rest, e, hm, hs, hf, v1, v2⟩ := parseRest_some hr
        refine ⟨[h1, h2], mm, ss, r.2.2, rest, ?_, rfl, ⟨by simp [hd.1, hd.2], hm, hs, hf⟩, ?_⟩
        · rw [clockText, e]; simp
        · rw [← ht, ← value_two]; exact clockDelta_means hrd v1 v2 hf
      · cases h

/-- The length of the units in microseconds. -/
def UnitMeans (u : List Char) (f : Int) : Prop :=
  (u = ['h'] ∧ f = 3600 * 1000000) ∨ (u = ['m'] ∧ f = 60 * 1000000) ∨ (u = ['s'] ∧ f = 1000000) ∨ (u = ['m', 's'] ∧ f = 1000)

theorem parseUnit_some {l : List Char} {f : Int} (h : parseUnit l = some f) : ∃ u rest, l = u ++ rest ∧ UnitMeans u f := by
  unfold parseUnit at h
  split at h
  · exact ⟨['h'], _, rfl, .inl ⟨rfl, by injection h with h; omega⟩⟩
  · exact ⟨['m', 's'], _, rfl, .inr (.inr (.inr ⟨rfl, by injection h with h; omega⟩))⟩
  · exact ⟨['s'], _, rfl, .inr (.inr (.inl ⟨rfl, by injection h with h; omega⟩))⟩
  · exact ⟨['m'], _, rfl, .inr (.inl ⟨rfl, by injection h with h; omega⟩)⟩
  · cases h

/-- C50, reading: what is read as a number of hours, minutes, seconds or milliseconds begins with that number and
its unit; whole numbers below 2^53 are read exactly. -/
theorem C50_timecounts_read (rd : Reader) (hrd : rd.Accurate) (text : List Char) (t : Int)
    (h : readAs rd .timecount text = some t) :
    ∃ whole fr u rest f, text = whole ++ (if fr = [] then [] else '.' :: fr) ++ u ++ rest ∧ whole ≠ [] ∧ whole.all isDig = true ∧
      fr.all isDig = true ∧ UnitMeans u f ∧ t = rd.num whole fr f ∧ (fr = [] → value whole < 2 ^ 53 → t = value whole * f) := by
  simp only [readAs, readCount] at h
  split at h
  · cases h
  · rename_i hw
    have hd : (text.takeWhile isDig).all isDig = true := by simp
    have e := List.takeWhile_append_dropWhile (p := isDig) (l := text)
    revert h
    split
    · rename_i more hm
      intro h
      split at h
      · cases h
      · rename_i hf
        rw [Option.map_eq_some_iff] at h
        obtain ⟨f, hf', ht⟩ := h
        obtain ⟨u, rest, hu, hm'⟩ := parseUnit_some hf'
        refine ⟨text.takeWhile isDig, more.takeWhile isDig, u, rest, f, ?_, hw, hd, by simp, hm', ht.symm, ?_⟩
        · rw [if_neg hf, List.append_assoc, List.append_assoc, ← hu, List.cons_append, List.takeWhile_append_dropWhile, ← hm, e]
        · intro h0; exact absurd h0 hf
    · intro h
      rw [Option.map_eq_some_iff] at h
      obtain ⟨f, hf', ht⟩ := h
      obtain ⟨u, rest, hu, hm'⟩ := parseUnit_some hf'
      refine ⟨text.takeWhile isDig, [], u, rest, f, ?_, hw, hd, rfl, hm', ht.symm, ?_⟩
      · rw [if_pos rfl, List.append_nil, List.append_assoc, ← hu, e]
      · intro _ hv
        rw [← ht, hrd.num _ _ hd hw hv]

example : readAs exactReader .limitedClock "12:34:60.5".toList = some 45300500000 ∧ readAs exactReader .timecount "1.5s".toList = some 1500000 ∧
    readAs exactReader .fullClock "1:00:00".toList = none := by decide

/-- The values the toolkit itself makes for a time base are of a format that time base permits. -/
theorem C50_written_format_is_permitted (base : TimeBase) : Permitted base (timingTypeOf base) := by
  cases base <;> simp [Permitted, timingTypeOf]

theorem attrOk_iff (base : TimeBase) (attr : TimeAttr) (o : Option TimeType) :
    attrOk base attr o = true ↔ ∀ ty, o = some ty → Permitted base ty := by
  cases o with
  | none => simp [attrOk]
  | some ty =>
    simp only [attrOk, decide_eq_true_eq, mem_compatible]
    constructor
    · intro h ty' h'; injection h' with h'; subst h'; exact h
    · intro h; exact h ty rfl

mutual
theorem validateBases_iff (base : TimeBase) : ∀ t : VTree,
    validateBases base t = true ↔ ∀ ty, Occurs ty t → Permitted base ty
  | .node b d e kids => by
    simp only [validateBases, Bool.and_eq_true, attrOk_iff, validateBasesL_iff base kids]
    constructor
    · rintro ⟨⟨⟨h1, h2⟩, h3⟩, h4⟩ ty ho
      cases ho with
      | begin => exact h1 ty rfl
      | dur => exact h3 ty rfl
      | «end» => exact h2 ty rfl
      | child hk ho => exact h4 _ hk ty ho
    · intro h
      refine ⟨⟨⟨?_, ?_⟩, ?_⟩, ?_⟩
      · intro ty hty; subst hty; exact h ty .begin
      · intro ty hty; subst hty; exact h ty .end
      · intro ty hty; subst hty; exact h ty .dur
      · intro k hk ty ho; exact h ty (.child hk ho)
theorem validateBasesL_iff (base : TimeBase) : ∀ ks : List VTree,
    validateBasesL base ks = true ↔ ∀ k ∈ ks, ∀ ty, Occurs ty k → Permitted base ty
  | [] => by simp [validateBasesL]
  | k :: ks => by
    simp only [validateBasesL, Bool.and_eq_true, validateBases_iff base k, validateBasesL_iff base ks,
      List.forall_mem_cons]
end

/-- C50, validation: the time base check passes exactly when every timing value anywhere in the
document is of a format the time base permits. -/
theorem C50_validated_document_formats (base : TimeBase) (t : VTree) :
    validateBases base t = true ↔ ∀ ty, Occurs ty t → Permitted base ty :=
  validateBases_iff base t

example : validateBases .media (.node (some .timecount) none none [.node (some .fullClock) none none []]) = true ∧
    validateBases .clock (.node (some .timecount) none none [.node (some .fullClock) none none []]) = false := by
  decide

end Verif.Time
