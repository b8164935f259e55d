import Verif.Clock.Model

/-!
# C77 and C78: clocks, and the times the file producer works out
-/
namespace Verif.Clocks

open Verif.Node (Ref)
open Verif.Tt (Base Text)

/-! ### C77: clocks -/

/-- The day an instant belongs to, where the clock is. -/
def Kind.dayOf (zone now : Int) : Kind → Int
  | .utc => now / day
  | _ => (now + zone) / day

theorem timeOfDay_eq (t : Int) : timeOfDay t = t % day := by
  unfold timeOfDay day
  omega

/-- **C77**: local and utc clocks tell the time since midnight of their place. -/
theorem C77_time_of_day (zone now : Int) (k : Kind) (place : Int) (hk : (k = .loc ∧ place = now + zone) ∨ (k = .utc ∧ place = now)) :
    0 ≤ k.real zone now ∧ k.real zone now < 86400000000 ∧ ∃ days : Int, place = days * 86400000000 + k.real zone now := by
  rcases hk with ⟨h, hp⟩ | ⟨h, hp⟩
  · rw [h, hp]
    simp only [Kind.real, timeOfDay_eq, day]
    exact ⟨by omega, by omega, (now + zone) / 86400000000, by omega⟩
  · rw [h, hp]
    simp only [Kind.real, timeOfDay_eq, day]
    exact ⟨by omega, by omega, now / 86400000000, by omega⟩

/-- **C77**: between two readings a clock of any kind has gone on by the time passed, less a day for each midnight in between. -/
theorem C77_between_readings (zone a b : Int) (k : Kind) :
    k.real zone b - k.real zone a = (b - a) - (k.dayOf zone b - k.dayOf zone a) * 86400000000 := by
  cases k with
  | loc => simp only [Kind.real, Kind.dayOf, timeOfDay_eq, day]; omega
  | utc => simp only [Kind.real, Kind.dayOf, timeOfDay_eq, day]; omega
  | media r => simp only [Kind.real, Kind.dayOf, timeOfDay_eq, day]; omega

/-- **C77**: within a day a clock goes exactly as fast as time.  Missing: beyond midnight, where it goes back
(`C77_false_media_goes_back`). -/
theorem C77_keeps_time_partial (zone a b : Int) (c : Clock) (hf : c.useFixed = false) (hd : c.kind.dayOf zone a = c.kind.dayOf zone b) :
    ∃ ta tb, c.time zone a = some ta ∧ c.time zone b = some tb ∧ tb - ta = b - a := by
  refine ⟨_, _, by simp only [Clock.time, hf]; rfl, by simp only [Clock.time, hf]; rfl, ?_⟩
  rw [C77_between_readings, hd]
  omega

/-- The fixed times that were accepted, in order. -/
def fixes (xs : List (Int × Op)) : List Int := xs.filterMap (fun x => match x.2 with | .fix (.time t) => some t | _ => none)

/-- The modes that were accepted, in order. -/
def modes (xs : List (Int × Op)) : List Bool := xs.filterMap (fun x => match x.2 with | .mode (.bool b) => some b | _ => none)

theorem run_fields (zone : Int) : ∀ (xs : List (Int × Op)) (c : Clock),
    (c.run zone xs).useFixed = (modes xs).getLast?.getD c.useFixed ∧ (c.run zone xs).fixed = (fixes xs).getLast?.or c.fixed
  | [], c => ⟨rfl, rfl⟩
  | x :: xs, c => by
    have ih := run_fields zone xs (c.after zone x)
    have hr : c.run zone (x :: xs) = (c.after zone x).run zone xs := rfl
    rw [hr, ih.1, ih.2]
    obtain ⟨now, op⟩ := x
    have lastCons : ∀ {α : Type} (y : α) (l : List α), (y :: l).getLast? = l.getLast?.or (some y) := by
      intro α y l
      cases l with
      | nil => rfl
      | cons z l => rw [List.getLast?_cons_cons]; cases h : (z :: l).getLast? with
        | none => rw [List.getLast?_eq_none_iff] at h; cases h
        | some w => rfl
    cases op with
    | fix a =>
      cases a with
      | time t =>
        have hm : modes ((now, Op.fix (.time t)) :: xs) = modes xs := rfl
        have hf : fixes ((now, Op.fix (.time t)) :: xs) = t :: fixes xs := rfl
        rw [hm, hf, lastCons]
        refine ⟨rfl, ?_⟩
        cases (fixes xs).getLast? <;> rfl
      | bool b => exact ⟨rfl, rfl⟩
      | none => exact ⟨rfl, rfl⟩
      | other => exact ⟨rfl, rfl⟩
    | mode a =>
      cases a with
      | bool b =>
        have hm : modes ((now, Op.mode (.bool b)) :: xs) = b :: modes xs := rfl
        have hf : fixes ((now, Op.mode (.bool b)) :: xs) = fixes xs := rfl
        rw [hm, hf, lastCons]
        refine ⟨?_, rfl⟩
        cases (modes xs).getLast? <;> rfl
      | time t => exact ⟨rfl, rfl⟩
      | none => exact ⟨rfl, rfl⟩
      | other => exact ⟨rfl, rfl⟩
    | adjust cur l =>
      have hm : modes ((now, Op.adjust cur l) :: xs) = modes xs := rfl
      have hf : fixes ((now, Op.adjust cur l) :: xs) = fixes xs := rfl
      have h1 : (c.after zone (now, Op.adjust cur l)).useFixed = c.useFixed ∧ (c.after zone (now, Op.adjust cur l)).fixed = c.fixed := by
        simp only [Clock.after, Clock.call]
        cases c.kind with
        | loc => exact ⟨rfl, rfl⟩
        | utc => exact ⟨rfl, rfl⟩
        | media r => cases cur <;> cases l <;> exact ⟨rfl, rfl⟩
      rw [hm, hf, h1.1, h1.2]
      exact ⟨rfl, rfl⟩

/-- **C77**: after any series of calls a clock says the fixed time registered last if fixed-time mode was turned on last, and otherwise
goes on; calls with values of another type change nothing. -/
theorem C77_fixed_mode (zone now : Int) (c : Clock) (hc : c.useFixed = false ∧ c.fixed = none) (xs : List (Int × Op)) :
    (c.run zone xs).time zone now =
      if (modes xs).getLast? = some true then (fixes xs).getLast? else some ((c.run zone xs).kind.real zone now) := by
  obtain ⟨h1, h2⟩ := run_fields zone xs c
  unfold Clock.time
  rw [h1, h2, hc.1, hc.2]
  cases h : (modes xs).getLast? with
  | none => rfl
  | some b => cases b <;> simp

/-- **C77**: which calls are refused, and how. -/
theorem C77_refused (zone now : Int) (c : Clock) :
    (∀ a, (∃ e, c.call zone now (.fix a) = .error e) ↔ ∀ t, a ≠ .time t) ∧
    (∀ a, (∃ e, c.call zone now (.mode a) = .error e) ↔ ∀ b, a ≠ .bool b) ∧
    (∀ r, c.kind = .media r → ∀ cur l, (∃ e, c.call zone now (.adjust cur l) = .error e) ↔
      ¬((∃ t, cur = .time t) ∧ (l = .none ∨ ∃ t, l = .time t))) := by
  refine ⟨fun a => ?_, fun a => ?_, fun r hr cur l => ?_⟩
  · cases a <;> simp [Clock.call]
  · cases a <;> simp [Clock.call]
  · cases cur <;> cases l <;> simp [Clock.call, hr]

/-- The call adjusts a media clock. -/
def Op.adjusts : Op → Bool
  | .adjust (.time _) .none => true
  | .adjust (.time _) (.time _) => true
  | _ => false

theorem run_kind (zone : Int) : ∀ (xs : List (Int × Op)) (c : Clock), (∀ x ∈ xs, x.2.adjusts = false) → (c.run zone xs).kind = c.kind
  | [], _, _ => rfl
  | x :: xs, c, h => by
    have hr : c.run zone (x :: xs) = (c.after zone x).run zone xs := rfl
    rw [hr, run_kind zone xs _ (fun y hy => h y (List.mem_cons_of_mem _ hy))]
    have hx := h x List.mem_cons_self
    obtain ⟨now, op⟩ := x
    cases op with
    | fix a => cases a <;> rfl
    | mode a => cases a <;> rfl
    | adjust cur l =>
      simp only [Clock.after, Clock.call]
      cases hk : c.kind with
      | loc => simp only [hk]
      | utc => simp only [hk]
      | media r => cases cur <;> cases l <;> simp_all [Op.adjusts]

theorem run_media (zone : Int) : ∀ (xs : List (Int × Op)) (c : Clock), (∃ r, c.kind = .media r) → ∃ r, (c.run zone xs).kind = .media r
  | [], _, h => h
  | x :: xs, c, h => by
    have hr : c.run zone (x :: xs) = (c.after zone x).run zone xs := rfl
    rw [hr]
    refine run_media zone xs _ ?_
    obtain ⟨r, hk⟩ := h
    obtain ⟨now, op⟩ := x
    cases op with
    | fix a => cases a <;> exact ⟨r, hk⟩
    | mode a => cases a <;> exact ⟨r, hk⟩
    | adjust cur l => cases cur <;> cases l <;> simp [Clock.after, Clock.call, hk]

theorem run_append (zone : Int) (c : Clock) (xs ys : List (Int × Op)) : c.run zone (xs ++ ys) = (c.run zone xs).run zone ys := by
  unfold Clock.run
  rw [List.foldl_append]

/-- **C77**: a media clock that is told it is `x` at an instant says, later on the same day, `x` and the time passed since, if nothing
adjusted it in between and it is not in fixed-time mode. -/
theorem C77_adjusted (zone a b x : Int) (r : Ref) (c : Clock) (hk : c.kind = .media r) (xs ys : List (Int × Op))
    (hys : ∀ y ∈ ys, y.2.adjusts = false) (hm : (c.run zone (xs ++ (a, .adjust (.time x) .none) :: ys)).useFixed = false)
    (hd : (a + zone) / day = (b + zone) / day) :
    (c.run zone (xs ++ (a, .adjust (.time x) .none) :: ys)).time zone b = some (x + (b - a)) := by
  rw [run_append] at hm ⊢
  obtain ⟨r', hr'⟩ := run_media zone xs c ⟨r, hk⟩
  have hc : (c.run zone xs).run zone ((a, .adjust (.time x) .none) :: ys) =
      ({ c.run zone xs with kind := .media ⟨timeOfDay (a + zone), x⟩ } : Clock).run zone ys := by
    show ((c.run zone xs).after zone _).run zone ys = _
    simp only [Clock.after, Clock.call, hr']
  rw [hc] at hm ⊢
  unfold Clock.time
  rw [hm, run_kind zone ys _ hys]
  simp only [Kind.real, timeOfDay_eq, Bool.false_eq_true, if_false, Option.some.injEq]
  unfold day at *
  omega

/-- **C77**: a media clock that is told that it is `x` when the machine's time of day is `l` says `x` then, and differs from the time of
day by the same amount at all other times. -/
theorem C77_adjusted_to (zone a b x l : Int) (r : Ref) (c : Clock) (hk : c.kind = .media r) (xs ys : List (Int × Op))
    (hys : ∀ y ∈ ys, y.2.adjusts = false) (hm : (c.run zone (xs ++ (a, .adjust (.time x) (.time l)) :: ys)).useFixed = false) :
    (c.run zone (xs ++ (a, .adjust (.time x) (.time l)) :: ys)).time zone b = some (x + ((b + zone) % 86400000000 - l)) := by
  rw [run_append] at hm ⊢
  obtain ⟨r', hr'⟩ := run_media zone xs c ⟨r, hk⟩
  have hc : (c.run zone xs).run zone ((a, .adjust (.time x) (.time l)) :: ys) =
      ({ c.run zone xs with kind := .media ⟨l, x⟩ } : Clock).run zone ys := by
    show ((c.run zone xs).after zone _).run zone ys = _
    simp only [Clock.after, Clock.call, hr']
  rw [hc] at hm ⊢
  unfold Clock.time
  rw [hm, run_kind zone ys _ hys]
  simp only [Kind.real, timeOfDay_eq, Bool.false_eq_true, if_false, Option.some.injEq]
  rfl

/-- A day in summer in Geneva: 23:30 local time is 21:30 UTC. -/
example : Kind.real 7200000000 77400000000 .loc = 84600000000 ∧ Kind.real 7200000000 77400000000 .utc = 77400000000 ∧
    (newMedia 7200000000 77400000000).time 7200000000 77460000000 = some 60000000 := by decide

example : let c := (newMedia 0 5).run 0 [(6, .fix .other), (7, .fix (.time 100)), (8, .mode (.time 3)), (9, .mode (.bool true))]
    c.time 0 50 = some 100 ∧ (c.run 0 [(60, .adjust (.time 1000) .none), (70, .mode (.bool false)), (80, .adjust (.bool true) .none)]).time 0 90 = some 1030 := by
  decide

/-- A media clock goes back at midnight: started at ten to midnight, it says ten minutes less than a day before zero twenty minutes
later.  The comment in the code says it does not loop (carriage/filesystem.py:49-50). -/
theorem C77_false_media_goes_back : ∃ zone a b : Int, a < b ∧ b - a < day ∧
    (newMedia zone a).time zone a = some 0 ∧ (newMedia zone a).time zone b = some (1200000000 - day) :=
  ⟨0, 85800000000, 87000000000, by decide, by decide, by decide, by decide⟩

/-- A clock in fixed-time mode that was not told a time has none. -/
theorem C77_false_fixed_without_time : ∃ c : Clock, ∃ xs, c.useFixed = false ∧ (c.run 0 xs).time 0 5 = none :=
  ⟨{ kind := .utc }, [(1, .mode (.bool true))], rfl, by decide⟩

/-! ### C78: the times of the file producer -/

/-- The clock that an emission without availability time would make. -/
def makes (zone : Int) (s : Text) (y : Int × Told) : Option Clock :=
  if y.2.seq = s ∧ y.2.avail = none then newClock zone y.1 y.2.base y.2.mode else none

theorem get_cons (s s' : Text) (c : Clock) (cs : Defaults) : Defaults.get ((s, c) :: cs) s' = if s = s' then some c else Defaults.get cs s' := by
  unfold Defaults.get
  by_cases h : s = s'
  · simp [h]
  · simp [h]

theorem avails_get (zone : Int) : ∀ (xs : List (Int × Told)) (cs : Defaults) (j : Nat) (now : Int) (x : Told), xs[j]? = some (now, x) →
    x.avail = none → (avails zone cs xs)[j]? = some (((Defaults.get cs x.seq).or ((xs.take (j + 1)).findSome? (makes zone x.seq))).map
      (fun c => c.kind.real zone now))
  | [], _, _, _, _, h, _ => by simp at h
  | (n, y) :: xs, cs, 0, now, x, h, ha => by
    simp only [List.getElem?_cons_zero, Option.some.injEq, Prod.mk.injEq] at h
    obtain ⟨rfl, rfl⟩ := h
    simp only [avails, List.getElem?_cons_zero, Option.some.injEq, checkAvail, ha, defaultClock, Nat.zero_add, List.take_succ_cons, List.take_zero,
      List.findSome?_cons, List.findSome?_nil, makes, and_self, if_true]
    cases Defaults.get cs y.seq with
    | some c => rfl
    | none => cases newClock zone n y.base y.mode <;> rfl
  | (n, y) :: xs, cs, j + 1, now, x, h, ha => by
    simp only [List.getElem?_cons_succ] at h
    simp only [avails, List.getElem?_cons_succ]
    rw [avails_get zone xs _ j now x h ha]
    congr 2
    rw [List.take_succ_cons, List.findSome?_cons]
    unfold checkAvail makes
    cases hya : y.avail with
    | some t => simp
    | none =>
      simp only [defaultClock, and_true]
      cases hg : Defaults.get cs y.seq with
      | some c =>
        by_cases hs : y.seq = x.seq
        · rw [← hs, hg]; rfl
        · rw [if_neg hs]
      | none =>
        cases hn : newClock zone n y.base y.mode with
        | none => by_cases hs : y.seq = x.seq <;> simp [hs]
        | some c =>
          simp only [get_cons]
          by_cases hs : y.seq = x.seq
          · rw [if_pos hs, ← hs, hg]; simp
          · rw [if_neg hs]; simp [hs]

theorem avails_length (zone : Int) : ∀ (xs : List (Int × Told)) (cs : Defaults), (avails zone cs xs).length = xs.length
  | [], _ => rfl
  | _ :: xs, cs => by simp only [avails, List.length_cons, avails_length zone xs]

/-- **C78**: an availability time from upstream is used as it is. -/
theorem C78_given_times (zone : Int) : ∀ (xs : List (Int × Told)) (cs : Defaults) (j : Nat) (now : Int) (x : Told) (t : Int),
    xs[j]? = some (now, x) → x.avail = some t → (avails zone cs xs)[j]? = some (some t)
  | [], _, _, _, _, _, h, _ => by simp at h
  | (n, y) :: xs, cs, 0, now, x, t, h, ha => by
    simp only [List.getElem?_cons_zero, Option.some.injEq, Prod.mk.injEq] at h
    obtain ⟨rfl, rfl⟩ := h
    simp only [avails, List.getElem?_cons_zero, checkAvail, ha]
  | (n, y) :: xs, cs, j + 1, now, x, t, h, ha => by
    simp only [List.getElem?_cons_succ] at h
    simp only [avails, List.getElem?_cons_succ]
    exact C78_given_times zone xs _ j now x t h ha

/-- **C78**: without one, the time is what a clock says that was made for the first emission of the same sequence without availability
time that a clock could be made for; there is no time if there was none. -/
theorem C78_default_times (zone : Int) (xs : List (Int × Told)) (j : Nat) (now : Int) (x : Told) (h : xs[j]? = some (now, x))
    (ha : x.avail = none) :
    (avails zone [] xs)[j]? = some (((xs.take (j + 1)).findSome? (makes zone x.seq)).map (fun c => c.kind.real zone now)) := by
  rw [avails_get zone xs [] j now x h ha]
  rfl

/-- **C78**: without availability times, a sequence of media times begins at zero and goes on with the time passed, whatever other
sequences are written.  Missing: beyond midnight (`C78_false_media_loops`). -/
theorem C78_media_times_partial (zone : Int) (xs : List (Int × Told)) (i j : Nat) (a b : Int) (x y : Told) (hij : i ≤ j)
    (hi : xs[i]? = some (a, x)) (hx : x.avail = none) (hb : x.base = some .media)
    (hfirst : ∀ k, k < i → ∀ n z, xs[k]? = some (n, z) → z.seq = x.seq → z.avail.isSome = true ∨ z.base = none)
    (hj : xs[j]? = some (b, y)) (hy : y.avail = none) (hs : y.seq = x.seq) (hd : (a + zone) / day = (b + zone) / day) :
    (avails zone [] xs)[j]? = some (some (b - a)) := by
  rw [C78_default_times zone xs j b y hj hy, hs]
  have : (xs.take (j + 1)).findSome? (makes zone x.seq) = some (newMedia zone a) := by
    have hsplit : xs.take (j + 1) = xs.take i ++ (a, x) :: (xs.take (j + 1)).drop (i + 1) := by
      have h1 : xs.take i = (xs.take (j + 1)).take i := by rw [List.take_take]; congr 1; omega
      rw [h1]
      have hlt : i < (xs.take (j + 1)).length := by
        have := (List.getElem?_eq_some_iff.1 hi).1
        rw [List.length_take]; omega
      have hget : (xs.take (j + 1))[i] = (a, x) := by
        have := List.getElem?_take_of_lt (l := xs) (show i < j + 1 by omega)
        rw [hi, List.getElem?_eq_getElem hlt] at this
        simpa using this
      conv => lhs; rw [← List.take_append_drop i (xs.take (j + 1)), List.drop_eq_getElem_cons hlt, hget]
    rw [hsplit, List.findSome?_append]
    have hnone : (xs.take i).findSome? (makes zone x.seq) = none := by
      rw [List.findSome?_eq_none_iff]
      intro z hz
      obtain ⟨k, hk, hz⟩ := List.getElem_of_mem hz
      rw [List.length_take] at hk
      have hz' : xs[k]? = some z := by
        rw [List.getElem?_eq_getElem (by omega)]
        rw [List.getElem_take] at hz
        rw [hz]
      obtain ⟨n, z⟩ := z
      unfold makes
      by_cases hc : z.seq = x.seq ∧ z.avail = none
      · rw [if_pos hc]
        rcases hfirst k (by omega) n z hz' hc.1 with h | h
        · rw [hc.2] at h; cases h
        · simp only [h, newClock]
      · rw [if_neg hc]
    rw [hnone, Option.none_or, List.findSome?_cons]
    simp only [makes, hx, hb, and_self, if_true, newClock]
  rw [this]
  simp only [Option.map_some, newMedia, Kind.real, timeOfDay_eq, Option.some.injEq]
  unfold day at *
  omega

/-- **C78**: without availability times, a sequence of clock times of which all documents have the same clock mode is given times of
day in that mode. -/
theorem C78_clock_times (zone : Int) (xs : List (Int × Told)) (j : Nat) (now : Int) (x : Told) (utc : Bool)
    (h : xs[j]? = some (now, x)) (ha : x.avail = none) (hb : x.base = some .clock)
    (hm : ∀ y ∈ xs, y.2.seq = x.seq → y.2.base = none ∨
      (y.2.base = some .clock ∧ y.2.mode = some (if utc = true then "utc".toList else "local".toList))) :
    (avails zone [] xs)[j]? = some (some ((if utc = true then now else now + zone) % 86400000000)) := by
  rw [C78_default_times zone xs j now x h ha]
  have hone : ∀ (ys : List (Int × Told)), (∀ y ∈ ys, y ∈ xs) → (now, x) ∈ ys →
      ys.findSome? (makes zone x.seq) = some { kind := if utc = true then .utc else .loc } := by
    intro ys
    induction ys with
    | nil => intro _ hm; cases hm
    | cons y ys ih =>
      intro hall hmem
      rw [List.findSome?_cons]
      have hmine : y.2.seq = x.seq → y.2.base = some .clock → y.2.avail = none →
          makes zone x.seq y = some { kind := if utc = true then .utc else .loc } := by
        intro hs hbase hav
        rcases hm y (hall y List.mem_cons_self) hs with h | h
        · rw [hbase] at h; cases h
        · unfold makes
          rw [if_pos ⟨hs, hav⟩, hbase, h.2]
          cases utc <;> rfl
      cases hmk : makes zone x.seq y with
      | some c =>
        simp only
        unfold makes at hmk
        by_cases hc : y.2.seq = x.seq ∧ y.2.avail = none
        · rw [if_pos hc] at hmk
          rcases hm y (hall y List.mem_cons_self) hc.1 with h | h
          · rw [h] at hmk; cases hmk
          · have := hmine hc.1 h.1 hc.2
            unfold makes at this
            rw [if_pos hc, hmk] at this
            exact this
        · rw [if_neg hc] at hmk; cases hmk
      | none =>
        simp only
        rcases List.mem_cons.1 hmem with he | he
        · rw [hmine (by rw [← he]) (by rw [← he]; exact hb) (by rw [← he]; exact ha)] at hmk
          cases hmk
        · exact ih (fun z hz => hall z (List.mem_cons_of_mem _ hz)) he
  rw [hone (xs.take (j + 1)) (fun y hy => List.mem_of_mem_take hy) (by
    have hlt := (List.getElem?_eq_some_iff.1 h).1
    rw [List.mem_iff_getElem?]
    exact ⟨j, by rw [List.getElem?_take_of_lt (by omega), h]⟩)]
  cases utc <;> simp [Kind.real, timeOfDay_eq, day]

/-- **C78**: a message is given no time exactly as long as no document without availability time came before it for which there is a
clock. -/
theorem C78_messages (zone : Int) (xs : List (Int × Told)) (j : Nat) (now : Int) (x : Told) (h : xs[j]? = some (now, x))
    (ha : x.avail = none) (hb : x.base = none) :
    (avails zone [] xs)[j]? = some none ↔ ∀ y ∈ xs.take j, y.2.seq = x.seq → y.2.avail = none → newClock zone y.1 y.2.base y.2.mode = none := by
  rw [C78_default_times zone xs j now x h ha]
  have htake : xs.take (j + 1) = xs.take j ++ [(now, x)] := by
    have hlt := (List.getElem?_eq_some_iff.1 h).1
    rw [List.take_succ_eq_append_getElem hlt]
    congr 2
    exact (List.getElem?_eq_some_iff.1 h).2
  have hlast : makes zone x.seq (now, x) = none := by unfold makes; simp [hb, newClock]
  rw [htake, List.findSome?_append, List.findSome?_cons, hlast, List.findSome?_nil, Option.or_none, Option.some.injEq, Option.map_eq_none_iff,
    List.findSome?_eq_none_iff]
  constructor
  · intro hn y hy hs hav
    have := hn y hy
    unfold makes at this
    rwa [if_pos ⟨hs, hav⟩] at this
  · intro hn y hy
    unfold makes
    by_cases hc : y.2.seq = x.seq ∧ y.2.avail = none
    · rw [if_pos hc]; exact hn y hy hc.1 hc.2
    · rw [if_neg hc]

/-- **C78**: the lines of a file producer that writes one sequence go to the manifest of that sequence.  Missing: several sequences
(`C78_false_one_manifest`). -/
theorem C78_manifest_partial (s : Text) : ∀ (ys : List (Told × Option Int)) (p : Option Text), (∀ y ∈ ys, y.1.seq = s) → (∀ q, p = some q → q = s) →
    manifestSeq p ys = ys.map (fun y => y.2.map (fun _ => s))
  | [], _, _, _ => rfl
  | (x, none) :: ys, p, h, hp => by
    simp only [manifestSeq, List.map_cons, Option.map_none]
    rw [C78_manifest_partial s ys p (fun y hy => h y (List.mem_cons_of_mem _ hy)) hp]
  | (x, some t) :: ys, p, h, hp => by
    have hg : p.getD x.seq = s := by
      cases p with
      | none => exact h (x, some t) List.mem_cons_self
      | some q => exact hp q rfl
    simp only [manifestSeq, List.map_cons, Option.map_some, hg]
    rw [C78_manifest_partial s ys (some s) (fun y hy => h y (List.mem_cons_of_mem _ hy)) (by intro q hq; cases hq; rfl)]

def exTold : List (Int × Told) :=
  [(10, { seq := "m".toList }), (20, { seq := "m".toList, base := some .media }), (30, { seq := "c".toList, base := some .clock, mode := some "utc".toList }),
   (40, { seq := "m".toList, base := some .media, avail := some 7 }), (50, { seq := "m".toList }), (60, { seq := "c".toList, base := some .clock, mode := some "utc".toList }),
   (70, { seq := "g".toList, base := some .clock, mode := some "gps".toList })]

example : avails 3600000000 [] exTold = [none, some 0, some 30, some 7, some 30, some 60, none] := by decide

/-- The manifest of media times loops at midnight although the code says it does not (carriage/filesystem.py:48-50). -/
theorem C78_false_media_loops : ∃ xs : List (Int × Told), (xs.map (·.1)).Pairwise (· ≤ ·) ∧ (∀ x ∈ xs, x.2.base = some .media) ∧
    avails 0 [] xs = [some 0, some 600000000, some (1200000000 - day)] :=
  ⟨[(85200000000, { seq := "m".toList, base := some .media }), (85800000000, { seq := "m".toList, base := some .media }),
    (86400000000, { seq := "m".toList, base := some .media })], by decide, by decide, by decide⟩

/-- The lines of all sequences go to the manifest of the one that came first. -/
theorem C78_false_one_manifest : ∃ ys : List (Told × Option Int), ys.map (·.1.seq) = ["a".toList, "b".toList] ∧
    manifestSeq none ys = [some "a".toList, some "a".toList] :=
  ⟨[({ seq := "a".toList }, some 1), ({ seq := "b".toList }, some 2)], rfl, rfl⟩

end Verif.Clocks
