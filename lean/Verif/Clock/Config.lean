import Verif.Clock.Props
import Verif.Time.Formats

/-!
# C80: nodes and the clocks of their configuration

`config/clocks.py` and the parts of `config/node.py` that use clocks.
-/
namespace Verif.Clocks

open Verif.Node (Ref)
open Verif.Tt (Text)

/-! ### Model -/

/-- How making or starting a node from a configuration fails. -/
inductive CfgErr where
  /-- `ConfigurationError` (config/clocks.py:38-44) -/
  | noSuchClock
  /-- `AttributeError`: the clock is `None` -/
  | noClock
  /-- the text is not a time (the pattern of `LimitedClockTimingType`) -/
  | notATime
  /-- `AssertionError` of `reactor.callLater`: a negative delay -/
  | negativeDelay
deriving DecidableEq

/-- `get_clock` of a configuration and `component` of what it names (config/clocks.py:7-44); `none` is the `DummyClock`. -/
def clockByName (name : Text) : Except CfgErr (Option Kind) :=
  if name = "utc".toList then .ok (some .utc)
  else if name = "local".toList then .ok (some .loc)
  else if name = "auto".toList then .ok none
  else .error .noSuchClock

/-- `LimitedClockTimingType(text).timedelta` of a text that is not from a document. -/
def configTime (rd : Time.Reader) (text : Text) : Except CfgErr Int :=
  if Time.pattern .limitedClock text = true then
    match Time.readLimited rd text with
    | some t => .ok t
    | none => .error .notATime
  else .error .notATime

/-- `get_time()` of the clock of a configuration. -/
def cfgTime (zone now : Int) : Option Kind → Except CfgErr Int
  | some k => .ok (k.real zone now)
  | none => .error .noClock

/-- A resequencer as made by `ReSequencer._create_component` (config/node.py:114-136, node/consumer.py:82-96): its clock, the delay of its loop and
the begin of its first window. -/
structure Reseq where
  clock : Kind
  delay : Int
  first : Int

def makeReseq (rd : Time.Reader) (zone now : Int) (clock beginOutput : Text) : Except CfgErr Reseq := do
  let c ← clockByName clock
  let delay ← (if beginOutput = "immediate".toList then pure 0 else do
    let t ← configTime rd beginOutput
    let n ← cfgTime zone now c
    pure (t - n))
  match c with
  | none => .error .noClock
  | some k => .ok ⟨k, delay, k.real zone now⟩

/-- `ReSequencer.start` (config/node.py:157-158, config/backend.py:246-251): the instant at which the loop is started, the reactor being started at
`now`. -/
def Reseq.start (r : Reseq) (now : Int) : Except CfgErr Int := if r.delay < 0 then .error .negativeDelay else .ok (now + r.delay)

/-- The encoder's media clock as made by `EBUTTDEncoder._create_component` (config/node.py:263-273, node/encoder.py:27-28). -/
def makeEncoder (rd : Time.Reader) (zone now : Int) (clock mediaTimeZero : Text) : Except CfgErr Ref := do
  let c ← clockByName clock
  let zero ← (if mediaTimeZero = "current".toList then cfgTime zone now c else configTime rd mediaTimeZero)
  .ok (Node.encoderClock zero)

/-- The reference time of a producer's document (config/node.py:213-219, node/producer.py:63): when it is asked for one. -/
def producerTime (zone now : Int) (clock : Text) : Except CfgErr Int := do
  let c ← clockByName clock
  cfgTime zone now c

/-! ### C80 -/

/-- **C80**: the clocks there are. -/
theorem C80_clock_names (name : Text) :
    clockByName name = .error .noSuchClock ↔ name ≠ "utc".toList ∧ name ≠ "local".toList ∧ name ≠ "auto".toList := by
  unfold clockByName
  by_cases h1 : name = "utc".toList
  · rw [if_pos h1]; exact ⟨fun h => (by cases h), fun h => absurd h1 h.1⟩
  · rw [if_neg h1]
    by_cases h2 : name = "local".toList
    · rw [if_pos h2]; exact ⟨fun h => (by cases h), fun h => absurd h2 h.2.1⟩
    · rw [if_neg h2]
      by_cases h3 : name = "auto".toList
      · rw [if_pos h3]; exact ⟨fun h => (by cases h), fun h => absurd h3 h.2.2⟩
      · rw [if_neg h3]; exact ⟨fun _ => ⟨h1, h2, h3⟩, fun _ => rfl⟩

/-- The digits at the front of digits. -/
theorem takeWhile_all {f : List Char} (h : f.all Time.isDig = true) : f.takeWhile Time.isDig = f := by
  induction f with
  | nil => rfl
  | cons c f ih =>
    rw [List.all_cons, Bool.and_eq_true] at h
    rw [List.takeWhile_cons_of_pos h.1, ih h.2]

theorem configTime_eq (rd : Time.Reader) (text : Text) (t : Int) :
    configTime rd text = .ok t ↔ Time.pattern .limitedClock text = true ∧ Time.readLimited rd text = some t := by
  unfold configTime
  by_cases hp : Time.pattern .limitedClock text = true
  · rw [if_pos hp]
    cases hr : Time.readLimited rd text with
    | none => exact ⟨fun h => (by cases h), fun h => (by cases h.2)⟩
    | some t' => exact ⟨fun h => ⟨hp, by injection h with h; rw [h]⟩, fun h => by injection h.2 with h; rw [h]⟩
  · rw [if_neg hp]
    exact ⟨fun h => (by cases h), fun h => absurd h.1 hp⟩

/-- **C80**: the texts taken as times in a configuration are `hh:mm:ss` and `hh:mm:ss.fff` with nothing before or after them, two digits for the
hours, minutes below sixty and seconds up to sixty, and each is the time it says. -/
theorem C80_times (rd : Time.Reader) (hrd : rd.Accurate) (text : Text) :
    (∀ t, configTime rd text = .ok t → ∃ hh mm ss fr, text = Time.clockText hh mm ss fr ∧ hh.length = 2 ∧ Time.ClockParts hh mm ss fr ∧
      Time.ClockMeans hh mm ss fr t) ∧
    ∀ hh mm ss fr, hh.length = 2 → Time.ClockParts hh mm ss fr → text = Time.clockText hh mm ss fr → ∃ t, configTime rd text = .ok t := by
  constructor
  · intro t h
    rw [configTime_eq] at h
    obtain ⟨hp, hr⟩ := h
    match text, hp, hr with
    | [], hp, _ | [_], hp, _ => simp [Time.pattern] at hp
    | h1 :: h2 :: l, hp, hr =>
      simp only [Time.pattern, Bool.and_eq_true] at hp
      simp only [Time.readLimited, if_pos hp.1, Option.map_eq_some_iff] at hr
      obtain ⟨r, hr, ht⟩ := hr
      obtain ⟨mm, ss, rest, e, hm, hs, hf, v1, v2⟩ := Time.parseRest_some hr
      have hnil : rest = [] := by
        match l, hp.2, hr, e with
        | c1 :: m1 :: m2 :: c2 :: s1 :: s2 :: tail, hc, hr, e =>
          simp only [Time.clockTail, Bool.and_eq_true, decide_eq_true_eq] at hc
          simp only [Time.parseRest] at hr
          rw [if_pos hc.1] at hr
          have hlen := congrArg List.length e
          simp only [List.length_cons, List.length_append, hm.1, hs.1] at hlen
          revert hr
          match tail, hc.2 with
          | [], _ =>
            intro _
            simp only [List.length_nil] at hlen
            exact List.eq_nil_of_length_eq_zero (by omega)
          | c :: f, hc2 =>
            by_cases hdot : c = '.'
            · subst hdot
              simp only [Time.optFrac, Bool.and_eq_true, decide_eq_true_eq] at hc2
              simp only [takeWhile_all hc2.2]
              intro hr
              injection hr with hr
              rw [← hr] at hlen
              simp only [if_neg hc2.1, List.length_cons] at hlen
              exact List.eq_nil_of_length_eq_zero (by omega)
            · unfold Time.optFrac at hc2
              split at hc2
              · rename_i heq; cases heq
              · rename_i heq; injection heq with heq _; exact absurd heq hdot
              · cases hc2
        | [], hc, _, _ | [_], hc, _, _ | [_, _], hc, _, _ | [_, _, _], hc, _, _ | [_, _, _, _], hc, _, _ | [_, _, _, _, _], hc, _, _ =>
          simp [Time.clockTail] at hc
      rw [hnil] at e
      refine ⟨[h1, h2], mm, ss, r.2.2, ?_, rfl, ⟨by simp [hp.1.1, hp.1.2], hm, hs, hf⟩, ?_⟩
      · rw [Time.clockText, e]; simp
      · rw [← ht, ← Time.value_two]; exact Time.clockDelta_means hrd v1 v2 hf
  · intro hh mm ss fr hl hparts htext
    obtain ⟨hd, hm, hs, hf⟩ := hparts
    match hh, mm, ss, hl, hm.1, hs.1 with
    | [h1, h2], [m1, m2], [s1, s2], _, _, _ =>
      have hmd := hm.2.1
      have hmv := hm.2.2
      have hsd := hs.2.1
      have hsv := hs.2.2
      simp only [List.all_cons, List.all_nil, Bool.and_true, Bool.and_eq_true] at hd hmd hsd
      rw [Time.value_two] at hmv hsv
      have key : ':' = ':' ∧ ':' = ':' ∧ Time.isDig m1 = true ∧ Time.dval m1 ≤ 5 ∧ Time.isDig m2 = true ∧
          (Time.isDig s1 = true ∧ Time.dval s1 ≤ 5 ∧ Time.isDig s2 = true ∨ s1 = '6' ∧ s2 = '0') := by
        refine ⟨rfl, rfl, hmd.1, by omega, hmd.2, ?_⟩
        by_cases h5 : Time.dval s1 ≤ 5
        · exact .inl ⟨hsd.1, h5, hsd.2⟩
        · right
          have hval : ∀ (c : Char) (n : Nat), Time.isDig c = true → Time.dval c = n → n ≤ 9 → c.toNat = 48 + n := by
            intro c n hc hn _
            simp only [Time.isDig, decide_eq_true_eq] at hc
            have h48 : 48 ≤ c.toNat := hc.1
            simp only [Time.dval] at hn
            have : '0'.toNat = 48 := rfl
            omega
          have h1 := hval s1 6 hsd.1 (by omega) (by omega)
          have h2 := hval s2 0 hsd.2 (by omega) (by omega)
          exact ⟨Char.ext (UInt32.toNat_inj.1 h1), Char.ext (UInt32.toNat_inj.1 h2)⟩
      have hopt : Time.optFrac (if fr = [] then [] else '.' :: fr) = true := by
        by_cases hfr : fr = []
        · rw [if_pos hfr]; rfl
        · rw [if_neg hfr]; simp [Time.optFrac, hfr, hf]
      have htail : Time.clockTail (':' :: m1 :: m2 :: ':' :: s1 :: s2 :: (if fr = [] then [] else '.' :: fr)) = true := by
        simp only [Time.clockTail, hopt, Bool.and_true, decide_eq_true_eq]
        exact ⟨trivial, trivial, key.2.2⟩
      obtain ⟨r, hr⟩ := Time.clockTail_parse htail
      refine ⟨Time.clockDelta rd (10 * Time.dval h1 + Time.dval h2) r, ?_⟩
      rw [configTime_eq, htext]
      simp only [Time.clockText, List.cons_append, List.nil_append]
      refine ⟨?_, ?_⟩
      · simp only [Time.pattern, hd.1, hd.2, Bool.true_and]; exact htail
      · simp only [Time.readLimited, if_pos hd, hr, Option.map_some]

/-- **C80**: a resequencer with a clock that is to begin at a time which its clock has not passed starts its loop when the clock says that time, if
that is the day on which it is made and it is made and started at one instant.  Missing: times that have passed (`C80_false_past`), and the clock `auto`
(`C80_false_auto`). -/
theorem C80_begin_output_partial (rd : Time.Reader) (zone now t : Int) (utc : Bool) (text : Text) (ht : configTime rd text = .ok t)
    (hi : text ≠ "immediate".toList) (k : Kind) (hk : k = if utc = true then .utc else .loc) (hlate : k.real zone now ≤ t) (hday : t < day) :
    ∃ r at', makeReseq rd zone now (if utc = true then "utc".toList else "local".toList) text = .ok r ∧ r.start now = .ok at' ∧ now ≤ at' ∧
      r.clock.real zone at' = t := by
  have hc : clockByName (if utc = true then "utc".toList else "local".toList) = .ok (some k) := by
    rw [hk]; cases utc <;> rfl
  refine ⟨⟨k, t - k.real zone now, k.real zone now⟩, now + (t - k.real zone now), ?_, ?_, by omega, ?_⟩
  · unfold makeReseq
    rw [hc]
    simp only [bind, Except.bind, if_neg hi, ht, cfgTime, pure, Except.pure]
  · unfold Reseq.start
    rw [if_neg (by simp only; omega)]
  · have hnn : ∀ x : Int, 0 ≤ x % day ∧ x % day < day := by intro x; unfold day; omega
    cases utc with
    | true =>
      simp only [if_true] at hk
      rw [hk] at hlate ⊢
      simp only [Kind.real, timeOfDay_eq] at hlate ⊢
      unfold day at *
      omega
    | false =>
      simp only [Bool.false_eq_true, if_false] at hk
      rw [hk] at hlate ⊢
      simp only [Kind.real, timeOfDay_eq] at hlate ⊢
      unfold day at *
      omega

/-- **C80**: which configurations of resequencers are made: those with the clock utc or local whose begin is a time or immediate. -/
theorem C80_resequencers (rd : Time.Reader) (zone now : Int) (clock text : Text) :
    (∃ r, makeReseq rd zone now clock text = .ok r) ↔
      (clock = "utc".toList ∨ clock = "local".toList) ∧ (text = "immediate".toList ∨ ∃ t, configTime rd text = .ok t) := by
  have hcases : (clockByName clock = .ok (some .utc) ∧ clock = "utc".toList) ∨ (clockByName clock = .ok (some .loc) ∧ clock = "local".toList) ∨
      (clockByName clock = .ok none ∧ clock = "auto".toList) ∨
      (clockByName clock = .error .noSuchClock ∧ clock ≠ "utc".toList ∧ clock ≠ "local".toList) := by
    by_cases h1 : clock = "utc".toList
    · left; exact ⟨by rw [h1]; rfl, h1⟩
    · by_cases h2 : clock = "local".toList
      · right; left; exact ⟨by rw [h2]; rfl, h2⟩
      · by_cases h3 : clock = "auto".toList
        · right; right; left; exact ⟨by rw [h3]; rfl, h3⟩
        · right; right; right; exact ⟨(C80_clock_names clock).2 ⟨h1, h2, h3⟩, h1, h2⟩
  have good : ∀ k, clockByName clock = .ok (some k) →
      ((∃ r, makeReseq rd zone now clock text = .ok r) ↔ (text = "immediate".toList ∨ ∃ t, configTime rd text = .ok t)) := by
    intro k hk
    unfold makeReseq
    rw [hk]
    simp only [bind, Except.bind]
    by_cases hi : text = "immediate".toList
    · simp only [if_pos hi, pure, Except.pure]
      exact ⟨fun _ => .inl hi, fun _ => ⟨_, rfl⟩⟩
    · simp only [if_neg hi]
      cases hct : configTime rd text with
      | error e =>
        refine ⟨fun ⟨r, hr⟩ => (by cases hr), fun h => ?_⟩
        rcases h with h | ⟨t, ht⟩
        · exact absurd h hi
        · cases ht
      | ok t => exact ⟨fun _ => .inr ⟨t, rfl⟩, fun _ => ⟨_, rfl⟩⟩
  rcases hcases with ⟨h, hn⟩ | ⟨h, hn⟩ | ⟨h, hn⟩ | ⟨h, h1, h2⟩
  · rw [good _ h]; exact ⟨fun hh => ⟨.inl hn, hh⟩, fun hh => hh.2⟩
  · rw [good _ h]; exact ⟨fun hh => ⟨.inr hn, hh⟩, fun hh => hh.2⟩
  · constructor
    · rintro ⟨r, hr⟩
      unfold makeReseq at hr
      rw [h] at hr
      simp only [bind, Except.bind] at hr
      by_cases hi : text = "immediate".toList
      · simp only [if_pos hi, pure, Except.pure] at hr; cases hr
      · simp only [if_neg hi] at hr
        cases hct : configTime rd text with
        | error e => rw [hct] at hr; cases hr
        | ok t => rw [hct] at hr; cases hr
    · rintro ⟨h1, _⟩
      rw [hn] at h1
      rcases h1 with h1 | h1 <;> exact absurd h1 (by decide)
  · constructor
    · rintro ⟨r, hr⟩
      unfold makeReseq at hr
      rw [h] at hr
      cases hr
    · rintro ⟨h3, _⟩
      rcases h3 with h3 | h3
      · exact absurd h3 h1
      · exact absurd h3 h2

/-- **C80**: an encoder whose media time begins with its making gives to what its clock says at a later instant of the same day the time passed. -/
theorem C80_encoder_current (rd : Time.Reader) (zone now b : Int) (utc : Bool) (k : Kind) (hk : k = if utc = true then .utc else .loc)
    (hd : k.dayOf zone now = k.dayOf zone b) :
    ∃ r, makeEncoder rd zone now (if utc = true then "utc".toList else "local".toList) "current".toList = .ok r ∧
      r.mediaTime (k.real zone b) = b - now := by
  have hc : clockByName (if utc = true then "utc".toList else "local".toList) = .ok (some k) := by
    rw [hk]; cases utc <;> rfl
  refine ⟨Node.encoderClock (k.real zone now), ?_, ?_⟩
  · unfold makeEncoder
    rw [hc]
    rfl
  · have := C77_between_readings zone now b k
    rw [hd] at this
    simp only [Node.Ref.mediaTime, Node.encoderClock]
    omega

/-- **C80**: an encoder whose media time begins at a given time of day gives zero to it, whatever its clock is. -/
theorem C80_encoder_given (rd : Time.Reader) (zone now t : Int) (clock text : Text) (ht : configTime rd text = .ok t) (hi : text ≠ "current".toList)
    (hc : ∃ c, clockByName clock = .ok c) :
    ∃ r, makeEncoder rd zone now clock text = .ok r ∧ ∀ x, r.mediaTime (t + x) = x := by
  obtain ⟨c, hc⟩ := hc
  refine ⟨Node.encoderClock t, ?_, ?_⟩
  · unfold makeEncoder
    rw [hc]
    simp only [bind, Except.bind, if_neg hi, ht]
  · intro x
    simp only [Node.Ref.mediaTime, Node.encoderClock]
    omega

/-! ### Non-vacuity -/

/-- At eight in the morning, to begin at half past nine. -/
example : configTime Time.exactReader "09:30:00".toList = .ok 34200000000 ∧ Kind.real 0 28800000000 .loc ≤ 34200000000 ∧
    ((makeReseq Time.exactReader 0 28800000000 "local".toList "09:30:00".toList).toOption.map (fun r => (r.delay, r.first))) =
      some (5400000000, 28800000000) := ⟨rfl, by decide, by decide +kernel⟩

example : ((makeEncoder Time.exactReader 0 28800000000 "auto".toList "10:00:00.0".toList).toOption.map (fun r => r.mediaTime 36001000000)) = some 1000000 := by
  decide +kernel

/-- Something after the time. -/
example : (configTime Time.exactReader "09:30:00 ".toList).toOption.isNone = true := by decide +kernel

/-! ### Where it fails -/

/-- At eight in the evening a resequencer cannot be started that is to begin at six in the morning. -/
theorem C80_false_past : ∃ r, makeReseq Time.exactReader 0 72000000000 "local".toList "06:00:00".toList = .ok r ∧
    r.start 72000000000 = .error .negativeDelay :=
  ⟨⟨.loc, 21600000000 - 72000000000, 72000000000⟩, rfl, by decide⟩

/-- With the clock `auto`, which is made for consumers, no resequencer, no encoder that begins with its making, and no document of a producer can
be made. -/
theorem C80_false_auto (rd : Time.Reader) (zone now : Int) :
    (makeReseq rd zone now "auto".toList "immediate".toList).toOption.isNone = true ∧
    (makeEncoder rd zone now "auto".toList "current".toList).toOption.isNone = true ∧
    producerTime zone now "auto".toList = .error .noClock := ⟨rfl, rfl, rfl⟩

end Verif.Clocks
