import Verif.Time.Lemmas

/-! Property theorems about the time formats (C19–C22). -/
namespace Verif.Time

/-- The time rounded down to a whole millisecond. -/
def toMs (t : Int) : Int := t / 1000 * 1000

/-- A numeral of exactly two digits below sixty. -/
def Sixty (l : List Char) : Prop := l.length = 2 ∧ l.all isDig = true ∧ value l < 60

/-- `HH:MM:SS` or `HH:MM:SS.mmm`, hours with at least two digits. -/
def ClockForm (text : List Char) : Prop :=
  ∃ hh mm ss, 2 ≤ hh.length ∧ hh.all isDig = true ∧ Sixty mm ∧ Sixty ss ∧
    (text = hh ++ ':' :: mm ++ ':' :: ss ∨
     ∃ ms, ms.length = 3 ∧ ms.all isDig = true ∧ text = hh ++ ':' :: mm ++ ':' :: ss ++ '.' :: ms)

/-- A reader that is exact on what it is asked and rounds fractions down to a microsecond. -/
def exactReader : Reader :=
  { frac := fun ds => ((value ds * 1000000 / 10 ^ ds.length : Nat) : Int)
    num := fun w ds f => (value (w ++ ds) : Int) * f / 10 ^ ds.length }

theorem exactReader_accurate : exactReader.Accurate := by
  constructor
  · intro ds _ _
    simp only [exactReader]
    have hpos : 0 < 10 ^ ds.length := Nat.pow_pos (by omega)
    have h1 := Nat.div_mul_le_self (value ds * 1000000) (10 ^ ds.length)
    have h2 := Nat.lt_div_mul_add (a := value ds * 1000000) hpos
    generalize value ds * 1000000 / 10 ^ ds.length = q at *
    have e : ((10 ^ ds.length : Nat) : Int) = 10 ^ ds.length := by simp
    rw [← e]
    generalize 10 ^ ds.length = p at *
    constructor
    · have : (value ds * 1000000 : Nat) < q * p + p := h2
      have h3 : ((value ds * 1000000 : Nat) : Int) < ((q * p + p : Nat) : Int) := by exact_mod_cast this
      simp only [Int.natCast_mul, Int.natCast_add] at h3
      simp at h3 ⊢
      omega
    · have h3 : ((q * p : Nat) : Int) ≤ ((value ds * 1000000 : Nat) : Int) := by exact_mod_cast h1
      simp only [Int.natCast_mul] at h3
      simp at h3 ⊢
      omega
  · intro ds f _ _ _
    simp [exactReader]

/-! ### C19 -/

theorem writeFull_eq {t : Int} {hh mm ss ms : Nat} (h : members t = ((hh : Int), (mm : Int), (ss : Int), (ms : Int))) :
    writeFull t = pad 2 hh ++ ':' :: (pad 2 mm ++ ':' :: (pad 2 ss ++
      (if ms ≠ 0 then '.' :: pad 3 ms else []))) := by
  unfold writeFull
  rw [h]
  simp only [fmtInt_nat]
  by_cases hz : ms = 0
  · subst hz; simp
  · rw [if_pos (by omega), if_pos hz]; simp

theorem colon_not_dig : isDig ':' = false := by decide

/-- C19.  Every non-negative time is written as `HH:MM:SS` or `HH:MM:SS.mmm`, and reading that text
gives the time rounded down to a millisecond. -/
theorem C19_full_clock_round_trip (rd : Reader) (hrd : rd.Accurate) (t : Int) (ht : 0 ≤ t) :
    readFull rd (writeFull t) = some (toMs t) ∧ ClockForm (writeFull t) := by
  obtain ⟨hh, mm, ss, ms, us, hmem, hmm, hss, hms, hus, heq⟩ := members_nat ht
  rw [writeFull_eq hmem]
  obtain ⟨p1, p2, p3⟩ := pad_props 2 hh
  constructor
  · unfold readFull
    obtain ⟨e1, e2⟩ := takeWhile_all (p := isDig) (b := pad 2 mm ++ ':' :: (pad 2 ss ++
      (if ms ≠ 0 then '.' :: pad 3 ms else []))) (c := ':') p2 colon_not_dig
    rw [e1, e2]
    have := pad_length 2 hh
    simp only
    rw [if_neg (by omega), p1]
    by_cases hz : ms = 0
    · rw [if_neg (by simp [hz]), parseRest_written hmm hss (fr := []) rfl [] (.inr ⟨rfl, rfl⟩)]
      simp only [Option.map_some, clockDelta, toMs, if_true, Option.some.injEq]
      omega
    · obtain ⟨q1, q2, q3⟩ := pad_props 3 ms
      rw [if_pos hz, parseRest_written hmm hss q2 _ (.inl rfl)]
      simp only [Option.map_some, clockDelta, toMs, Option.some.injEq]
      rw [if_neg q3, frac_exact hrd hms]
      omega
  · have hsixty : ∀ n, n < 60 → Sixty (pad 2 n) := by
      intro n hn
      obtain ⟨a, b, _⟩ := pad_props 2 n
      exact ⟨by rw [pad_two (by omega)]; rfl, b, by omega⟩
    refine ⟨pad 2 hh, pad 2 mm, pad 2 ss, pad_length 2 hh, p2, hsixty mm hmm, hsixty ss hss, ?_⟩
    by_cases hz : ms = 0
    · left; simp [hz]
    · right
      obtain ⟨q1, q2, q3⟩ := pad_props 3 ms
      exact ⟨pad 3 ms, by rw [pad_three hms]; rfl, q2, by simp [hz]⟩

example : writeFull 3723004005 = "01:02:03.004".toList ∧ writeFull 864000000000 = "240:00:00".toList ∧
    exactReader.Accurate := ⟨by decide, by decide, exactReader_accurate⟩

/-! ### C20 -/

/-- C20.  A non-negative time is refused by the limited clock format exactly when it is a hundred
hours or more; otherwise it is written as `HH:MM:SS[.mmm]` and read back rounded down. -/
theorem C20_limited_clock_round_trip (rd : Reader) (hrd : rd.Accurate) (t : Int) (ht : 0 ≤ t) :
    (writeLimited t = none ↔ 100 * 3600000000 ≤ t) ∧
    ∀ text, writeLimited t = some text → readLimited rd text = some (toMs t) ∧ ClockForm text := by
  obtain ⟨hh, mm, ss, ms, us, hmem, hmm, hss, hms, hus, heq⟩ := members_nat ht
  constructor
  · unfold writeLimited
    rw [hmem]
    simp only
    constructor
    · intro h
      split at h
      · omega
      · simp at h
    · intro h
      rw [if_pos (by omega)]
  · intro text htext
    have hh99 : hh < 100 := by
      unfold writeLimited at htext
      rw [hmem] at htext
      simp only at htext
      split at htext
      · simp at htext
      · omega
    have : text = writeFull t := by
      unfold writeLimited at htext
      split at htext
      · simp at htext
      · injection htext with htext; exact htext.symm
    subst this
    refine ⟨?_, (C19_full_clock_round_trip rd hrd t ht).2⟩
    rw [writeFull_eq hmem, pad_two hh99]
    obtain ⟨a1, a2, _⟩ := dc_facts (hh / 10) (by omega)
    obtain ⟨b1, b2, _⟩ := dc_facts (hh % 10) (by omega)
    simp only [List.cons_append, List.nil_append, readLimited]
    rw [if_pos ⟨a1, b1⟩, a2, b2]
    have e : 10 * (hh / 10) + hh % 10 = hh := by omega
    rw [e]
    by_cases hz : ms = 0
    · rw [if_neg (by simp [hz]), parseRest_written hmm hss (fr := []) rfl [] (.inr ⟨rfl, rfl⟩)]
      simp only [Option.map_some, clockDelta, toMs, if_true, Option.some.injEq]
      omega
    · obtain ⟨q1, q2, q3⟩ := pad_props 3 ms
      rw [if_pos hz, parseRest_written hmm hss q2 _ (.inl rfl)]
      simp only [Option.map_some, clockDelta, toMs, Option.some.injEq]
      rw [if_neg q3, frac_exact hrd hms]
      omega

example : writeLimited 359999999999 = some "99:59:59.999".toList ∧ writeLimited 360000000000 = none := by
  decide

/-! ### C21 -/

theorem readCount_written {rd : Reader} (hrd : rd.Accurate) {n : Nat} (hn : n < 2 ^ 53) {u : List Char}
    {c : Char} {cs : List Char} (hu : u = c :: cs) (hc : isDig c = false) (hd : c ≠ '.') {f : Int}
    (hf : parseUnit u = some f) : readCount rd (pad 1 n ++ u) = some ((n : Int) * f) := by
  obtain ⟨p1, p2, p3⟩ := pad_props 1 n
  unfold readCount
  rw [hu] at hf ⊢
  obtain ⟨e1, e2⟩ := takeWhile_all (p := isDig) (b := cs) (c := c) p2 hc
  rw [e1, e2]
  simp only
  rw [if_neg p3]
  split
  · rename_i more h
    injection h with h _
    exact absurd h hd
  · rw [hf]
    simp only [Option.map_some, Option.some.injEq]
    rw [hrd.num (pad 1 n) f p2 p3 (by rw [p1]; exact hn), p1]

/-- C21, without the sub-millisecond times.  The full statement is the one below without
`hms : t = 0 ∨ 1000 ≤ t`; it is false (`C21_false_below_a_millisecond`).  `hbig` bounds the numeral by
the range in which `float` is exact. -/
theorem C21_timecount_round_trip_partial (rd : Reader) (hrd : rd.Accurate) (t : Int) (ht : 0 ≤ t)
    (hms : t = 0 ∨ 1000 ≤ t) (hbig : t < 2 ^ 53 * 1000) :
    readCount rd (writeCount t) = some (toMs t) := by
  obtain ⟨hh, mm, ss, ms, us, hmem, hmm, hss, hms', hus, heq⟩ := members_nat ht
  by_cases h0 : t = 0
  · subst h0
    have hw : writeCount 0 = pad 1 0 ++ ['s'] := by decide
    rw [hw, readCount_written hrd (n := 0) (by decide) (c := 's') (cs := []) rfl (by decide) (by decide)
      (f := 1000000) rfl]
    rfl
  have h1 : 1000 ≤ t := by omega
  unfold writeCount
  rw [if_neg h0, hmem]
  simp only
  by_cases c1 : ms = 0
  · by_cases c2 : ss = 0
    · by_cases c3 : mm = 0
      · have c4 : hh ≠ 0 := by omega
        subst c1 c2 c3
        simp [c4]
        rw [fmtInt_nat, readCount_written hrd (n := hh) (by omega) (c := 'h') (cs := []) rfl (by decide)
          (by decide) (f := 3600000000) rfl]
        simp only [toMs, Option.some.injEq]
        omega
      · subst c1 c2
        simp [c3]
        have e : (mm : Int) + hh * 60 = ((mm + hh * 60 : Nat) : Int) := by simp
        rw [e, fmtInt_nat, readCount_written hrd (n := mm + hh * 60) (by omega) (c := 'm') (cs := []) rfl
          (by decide) (by decide) (f := 60000000) rfl]
        simp only [toMs, Option.some.injEq]
        omega
    · subst c1
      simp [c2]
      have e' : (ss : Int) + mm * 60 + hh * 3600 = ((ss + mm * 60 + hh * 3600 : Nat) : Int) := by simp
      rw [e', fmtInt_nat, readCount_written hrd (n := ss + mm * 60 + hh * 3600) (by omega) (c := 's')
        (cs := []) rfl (by decide) (by decide) (f := 1000000) rfl]
      simp only [toMs, Option.some.injEq]
      omega
  · simp [c1]
    have e : (ms : Int) + ss * 1000 + mm * 60000 + hh * 3600000 =
        ((ms + ss * 1000 + mm * 60000 + hh * 3600000 : Nat) : Int) := by simp
    rw [e, fmtInt_nat, readCount_written hrd (n := ms + ss * 1000 + mm * 60000 + hh * 3600000) (by omega)
      (c := 'm') (cs := ['s']) rfl (by decide) (by decide) (f := 1000) rfl]
    simp only [toMs, Option.some.injEq]
    omega

example : writeCount 3723004005 = "3723004ms".toList ∧ writeCount 7200000000 = "2h".toList ∧
    readCount exactReader (writeCount 7260000000) = some 7260000000 := by decide

/-- A time below a millisecond is written as `0None`, which cannot be read. -/
theorem C21_false_below_a_millisecond (rd : Reader) (t : Int) (h : 0 < t) (h' : t < 1000) :
    writeCount t = "0None".toList ∧ readCount rd (writeCount t) = none := by
  obtain ⟨hh, mm, ss, ms, us, hmem, hmm, hss, hms, hus, heq⟩ := members_nat (t := t) (by omega)
  have e1 : hh = 0 := by omega
  have e2 : mm = 0 := by omega
  have e3 : ss = 0 := by omega
  have e4 : ms = 0 := by omega
  subst e1 e2 e3 e4
  have hw : writeCount t = "0None".toList := by
    unfold writeCount
    rw [if_neg (by omega), hmem]
    decide
  refine ⟨hw, ?_⟩
  rw [hw]
  rfl

/-! ### C22 -/

theorem char_lt (a b : Nat) (ha : a < 10) (hb : b < 10) : dc a < dc b ↔ a < b := by
  have h1 := (dc_facts a ha).2.2.2.2
  have h2 := (dc_facts b hb).2.2.2.2
  rw [Char.lt_def, UInt32.lt_iff_toNat_lt]
  change (dc a).toNat < (dc b).toNat ↔ _
  omega

theorem dc_inj (a b : Nat) (ha : a < 10) (hb : b < 10) : dc a = dc b ↔ a = b := by
  constructor
  · intro h
    have h1 := (dc_facts a ha).2.1
    have h2 := (dc_facts b hb).2.1
    rw [h] at h1; omega
  · intro h; rw [h]

theorem two_lt {p q : Nat} (hp : p < 100) (hq : q < 100) (x y : List Char) :
    pad 2 p ++ x < pad 2 q ++ y ↔ p < q ∨ p = q ∧ x < y := by
  rw [pad_two hp, pad_two hq]
  simp only [List.cons_append, List.nil_append, List.cons_lt_cons_iff]
  rw [char_lt _ _ (by omega) (by omega), dc_inj _ _ (by omega) (by omega),
    char_lt _ _ (by omega) (by omega), dc_inj _ _ (by omega) (by omega)]
  constructor
  · rintro (h | ⟨h1, h | ⟨h2, h3⟩⟩)
    · left; omega
    · left; omega
    · right; exact ⟨by omega, h3⟩
  · rintro (h | ⟨h1, h2⟩)
    · by_cases hh : p / 10 < q / 10
      · exact .inl hh
      · exact .inr ⟨by omega, .inl (by omega)⟩
    · exact .inr ⟨by omega, .inr ⟨by omega, h2⟩⟩

theorem three_lt {p q : Nat} (hp : p < 1000) (hq : q < 1000) : pad 3 p < pad 3 q ↔ p < q := by
  rw [pad_three hp, pad_three hq]
  simp only [List.cons_lt_cons_iff]
  rw [char_lt _ _ (by omega) (by omega), dc_inj _ _ (by omega) (by omega),
    char_lt _ _ (by omega) (by omega), dc_inj _ _ (by omega) (by omega),
    char_lt _ _ (by omega) (by omega), dc_inj _ _ (by omega) (by omega)]
  have : ¬ (([] : List Char) < []) := by simp
  simp only [this, and_false, or_false]
  omega

theorem cons_lt_same (c : Char) (x y : List Char) : c :: x < c :: y ↔ x < y := by
  rw [List.cons_lt_cons_iff]
  have : ¬ (c < c) := by simp
  simp [this]

theorem frac_lt {p q : Nat} (hp : p < 1000) (hq : q < 1000) :
    ((if p ≠ 0 then '.' :: pad 3 p else []) < (if q ≠ 0 then '.' :: pad 3 q else [])) ↔ p < q := by
  by_cases h1 : p = 0
  · by_cases h2 : q = 0
    · simp [h1, h2]
    · simp [h1, h2]; omega
  · by_cases h2 : q = 0
    · simp [h1, h2]
    · rw [if_pos h1, if_pos h2, cons_lt_same, three_lt hp hq]

/-- C22.  Below a hundred hours, comparing two written clock times as text (as the code does with
Python's string order) gives the same answer as comparing the times at millisecond precision. -/
theorem C22_text_order_is_time_order (t u : Int) (ht : 0 ≤ t) (hu : 0 ≤ u)
    (ht' : t < 100 * 3600000000) (hu' : u < 100 * 3600000000) :
    (writeFull t < writeFull u ↔ t / 1000 < u / 1000) ∧ (writeFull t = writeFull u ↔ t / 1000 = u / 1000) := by
  obtain ⟨hh, mm, ss, ms, us, hmem, hmm, hss, hms, hus, heq⟩ := members_nat ht
  obtain ⟨hh', mm', ss', ms', us', hmem', hmm', hss', hms', hus', heq'⟩ := members_nat hu
  refine ⟨?_, ?_⟩
  · rw [writeFull_eq hmem, writeFull_eq hmem']
    rw [two_lt (by omega) (by omega), cons_lt_same, two_lt (by omega) (by omega), cons_lt_same,
      two_lt (by omega) (by omega), frac_lt hms hms']
    omega
  · constructor
    · intro h
      have h1 := (C19_full_clock_round_trip exactReader exactReader_accurate t ht).1
      have h2 := (C19_full_clock_round_trip exactReader exactReader_accurate u hu).1
      rw [h, h2] at h1
      injection h1 with h1
      unfold toMs at h1
      omega
    · intro h
      have : hh = hh' ∧ mm = mm' ∧ ss = ss' ∧ ms = ms' := by omega
      rw [writeFull_eq hmem, writeFull_eq hmem', this.1, this.2.1, this.2.2.1, this.2.2.2]

example : writeFull 9000000 < writeFull 10000000 ∧ writeFull 1000000 < writeFull 1500000 := by decide

/-- At a hundred hours the two orders part. -/
theorem C22_false_from_a_hundred_hours :
    writeFull (100 * 3600000000) < writeFull (20 * 3600000000) := by decide

end Verif.Time
