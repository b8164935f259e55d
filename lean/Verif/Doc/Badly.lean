import Verif.Doc.TimingProps
import Verif.Time.Formats

/-!
# Which elements are treated as badly timed, for the ways to spell a time (C18)

The code compares the texts of `begin` and `end`; here that comparison is related to the times the texts stand for, exactly, whatever
the number of digits.
-/
namespace Verif.Time

/-! ### The order of numerals -/

theorem isDig_dval {c : Char} (h : isDig c = true) : dval c < 10 ∧ c.toNat = 48 + dval c := by
  simp only [isDig, decide_eq_true_eq] at h
  unfold dval
  omega

theorem dig_lt {c d : Char} (hc : isDig c = true) (hd : isDig d = true) : (c < d ↔ dval c < dval d) ∧ (c = d ↔ dval c = dval d) := by
  have h1 := isDig_dval hc
  have h2 := isDig_dval hd
  constructor
  · rw [Char.lt_def, UInt32.lt_iff_toNat_lt]
    change c.toNat < d.toNat ↔ _
    omega
  · constructor
    · intro h; rw [h]
    · intro h
      apply Char.toNat_inj.1
      omega

theorem value_cons (c : Char) (l : List Char) : value (c :: l) = dval c * 10 ^ l.length + value l := by
  have := value_append [c] l
  simpa [value] using this

theorem value_lt : ∀ (l : List Char), l.all isDig = true → value l < 10 ^ l.length
  | [], _ => by decide
  | c :: l, h => by
    simp only [List.all_cons, Bool.and_eq_true] at h
    have h1 := value_lt l h.2
    have h2 := (isDig_dval h.1).1
    rw [value_cons, List.length_cons, Nat.pow_succ]
    have h3 : dval c * 10 ^ l.length ≤ 9 * 10 ^ l.length := Nat.mul_le_mul_right _ (by omega)
    omega

/-- A digit more significant than all that follow decides. -/
theorem digit_first {a b v w L M : Nat} (hv : v < L) (h : a < b) : (a * L + v) * M < (b * M + w) * L ∨ M = 0 := by
  by_cases hM : M = 0
  · exact .inr hM
  · left
    have h1 : (a * L + v) * M < ((a + 1) * L) * M := by
      refine Nat.mul_lt_mul_of_pos_right ?_ (by omega)
      rw [Nat.add_mul]; omega
    have h2 : ((a + 1) * L) * M ≤ (b * M + w) * L := by
      have h3 : (a + 1) * (L * M) ≤ b * (L * M) := Nat.mul_le_mul_right _ h
      have h4 : (b * M + w) * L = b * (L * M) + w * L := by rw [Nat.add_mul, Nat.mul_assoc, Nat.mul_comm M L]
      rw [h4, Nat.mul_assoc]
      omega
    omega

/-- Fractions as texts: the order of the numbers they stand for, and of two spellings of a number the shorter one comes first. -/
theorem fraction_lt : ∀ (f g : List Char), f.all isDig = true → g.all isDig = true →
    (f < g ↔ value f * 10 ^ g.length < value g * 10 ^ f.length ∨
      value f * 10 ^ g.length = value g * 10 ^ f.length ∧ f.length < g.length)
  | [], [], _, _ => by simp
  | [], c :: g, _, _ => by
    refine ⟨fun _ => ?_, fun _ => List.nil_lt_cons _ _⟩
    simp [value]
    omega
  | c :: f, [], _, _ => by
    have h0 : ¬ c :: f < [] := by simp
    refine ⟨fun h => absurd h h0, fun h => ?_⟩
    simp [value] at h
  | c :: f, d :: g, hf, hg => by
    simp only [List.all_cons, Bool.and_eq_true] at hf hg
    have ih := fraction_lt f g hf.2 hg.2
    have hcd := dig_lt hf.1 hg.1
    have vf := value_lt f hf.2
    have vg := value_lt g hg.2
    rw [List.cons_lt_cons_iff, hcd.1, hcd.2, ih, value_cons, value_cons, List.length_cons, List.length_cons, Nat.pow_succ, Nat.pow_succ]
    have pf : 0 < 10 ^ f.length := Nat.pow_pos (by omega)
    have pg : 0 < 10 ^ g.length := Nat.pow_pos (by omega)
    generalize 10 ^ f.length = L at *
    generalize 10 ^ g.length = M at *
    generalize value f = v at *
    generalize value g = w at *
    generalize dval c = a at *
    generalize dval d = b at *
    have e1 : (a * L + v) * (M * 10) = (a * L + v) * M * 10 := by rw [Nat.mul_assoc]
    have e2 : (b * M + w) * (L * 10) = (b * M + w) * L * 10 := by rw [Nat.mul_assoc]
    rw [e1, e2]
    rcases Nat.lt_trichotomy a b with h | h | h
    · have h1 := (digit_first (w := w) (M := M) vf h).resolve_right (by omega)
      constructor
      · intro _; left; omega
      · intro _; exact .inl h
    · subst h
      have e3 : (a * L + v) * M = a * (L * M) + v * M := by rw [Nat.add_mul, Nat.mul_assoc]
      have e4 : (a * M + w) * L = a * (L * M) + w * L := by rw [Nat.add_mul, Nat.mul_assoc, Nat.mul_comm M L]
      rw [e3, e4]
      omega
    · have h1 := (digit_first (w := v) (M := L) vg h).resolve_right (by omega)
      constructor
      · rintro (h2 | ⟨h2, _⟩) <;> omega
      · rintro (h2 | ⟨h2, _⟩) <;> omega

/-- Numerals with the same number of digits, followed by something. -/
theorem numeral_lt : ∀ (p q x y : List Char), p.length = q.length → p.all isDig = true → q.all isDig = true →
    (p ++ x < q ++ y ↔ value p < value q ∨ value p = value q ∧ x < y)
  | [], [], x, y, _, _, _ => by simp
  | [], _ :: _, _, _, h, _, _ => by cases h
  | _ :: _, [], _, _, h, _, _ => by cases h
  | c :: p, d :: q, x, y, h, hp, hq => by
    simp only [List.all_cons, Bool.and_eq_true] at hp hq
    have hl : p.length = q.length := Nat.succ.inj h
    have ih := numeral_lt p q x y hl hp.2 hq.2
    have hcd := dig_lt hp.1 hq.1
    have vp := value_lt p hp.2
    have vq := value_lt q hq.2
    rw [List.cons_append, List.cons_append, List.cons_lt_cons_iff, hcd.1, hcd.2, ih, value_cons, value_cons, hl]
    rw [hl] at vp
    generalize (x < y) = P
    generalize 10 ^ q.length = L at *
    generalize value p = v at *
    generalize value q = w at *
    generalize dval c = a at *
    generalize dval d = b at *
    rcases Nat.lt_trichotomy a b with h1 | h1 | h1
    · have h2 : (a + 1) * L ≤ b * L := Nat.mul_le_mul_right _ h1
      rw [Nat.add_mul] at h2
      omega
    · subst h1
      constructor
      · rintro (h2 | ⟨_, h2 | ⟨h2, h3⟩⟩)
        · omega
        · left; omega
        · exact .inr ⟨by omega, h3⟩
      · rintro (h2 | ⟨h2, h3⟩)
        · exact .inr ⟨rfl, .inl (by omega)⟩
        · exact .inr ⟨rfl, .inr ⟨by omega, h3⟩⟩
    · have h2 : (b + 1) * L ≤ a * L := Nat.mul_le_mul_right _ h1
      rw [Nat.add_mul] at h2
      omega

/-! ### Specification: the instants that clock times stand for -/

/-- The time `hh:mm:ss.fr` in units of the last digit of the fraction. -/
def clockUnits (hh mm ss fr : List Char) : Nat :=
  ((value hh * 60 + value mm) * 60 + value ss) * 10 ^ fr.length + value fr

/-- Comparing fractions `a / 10^m < b / 10^n`. -/
def Before (a m b n : Nat) : Prop := a * 10 ^ n < b * 10 ^ m

/-- `a / 10^m = b / 10^n`. -/
def Same (a m b n : Nat) : Prop := a * 10 ^ n = b * 10 ^ m

theorem tail_lt (f g : List Char) (hf : f.all isDig = true) (hg : g.all isDig = true) :
    ((if f = [] then [] else '.' :: f) < (if g = [] then [] else '.' :: g) ↔ f < g) := by
  by_cases h1 : f = []
  · by_cases h2 : g = []
    · simp [h1, h2]
    · rw [if_pos h1, if_neg h2, h1]
      cases g with
      | nil => exact absurd rfl h2
      | cons c g => simp
  · by_cases h2 : g = []
    · rw [if_neg h1, if_pos h2, h2]
      cases f with
      | nil => exact absurd rfl h1
      | cons c f => simp
    · rw [if_neg h1, if_neg h2, cons_lt_same]

theorem whole_first {A B v w L M : Nat} (hv : v < L) (hw : w < M) :
    ((A * L + v) * M < (B * M + w) * L ↔ A < B ∨ A = B ∧ v * M < w * L) ∧
    ((A * L + v) * M = (B * M + w) * L ↔ A = B ∧ v * M = w * L) := by
  rcases Nat.lt_trichotomy A B with h | h | h
  · have h1 := (digit_first (w := w) (M := M) hv h).resolve_right (by omega)
    omega
  · subst h
    have e3 : (A * L + v) * M = A * (L * M) + v * M := by rw [Nat.add_mul, Nat.mul_assoc]
    have e4 : (A * M + w) * L = A * (L * M) + w * L := by rw [Nat.add_mul, Nat.mul_assoc, Nat.mul_comm M L]
    rw [e3, e4]
    omega
  · have h1 := (digit_first (w := v) (M := L) hw h).resolve_right (by omega)
    omega

/-- The order of the texts of clock times with equally many digits for the hours and seconds below sixty: that of the instants, and of two spellings of an
instant the shorter one comes first. -/
theorem clockText_lt (hh mm ss fr hh' mm' ss' fr' : List Char) (h : ClockParts hh mm ss fr) (h' : ClockParts hh' mm' ss' fr')
    (hl : hh.length = hh'.length) (hs : value ss < 60) (hs' : value ss' < 60) :
    clockText hh mm ss fr < clockText hh' mm' ss' fr' ↔
      Before (clockUnits hh mm ss fr) fr.length (clockUnits hh' mm' ss' fr') fr'.length ∨
      Same (clockUnits hh mm ss fr) fr.length (clockUnits hh' mm' ss' fr') fr'.length ∧ fr.length < fr'.length := by
  obtain ⟨h1, ⟨h2, h3, h4⟩, ⟨h5, h6, h7⟩, h8⟩ := h
  obtain ⟨k1, ⟨k2, k3, k4⟩, ⟨k5, k6, k7⟩, k8⟩ := h'
  unfold clockText
  rw [numeral_lt _ _ _ _ hl h1 k1, cons_lt_same, numeral_lt _ _ _ _ (by omega) h3 k3, cons_lt_same, numeral_lt _ _ _ _ (by omega) h6 k6,
    tail_lt _ _ h8 k8, fraction_lt _ _ h8 k8]
  have vf := value_lt fr h8
  have vg := value_lt fr' k8
  unfold Before Same clockUnits
  rw [(whole_first vf vg).1, (whole_first vf vg).2]
  generalize value fr * 10 ^ fr'.length = x
  generalize value fr' * 10 ^ fr.length = y
  omega

/-- The text of a timecount. -/
def countText (whole fr u : List Char) : List Char := whole ++ ((if fr = [] then [] else '.' :: fr) ++ u)

/-- The order of the texts of timecounts with the same unit and equally many digits is the order of the numbers. -/
theorem countText_lt (w f w' f' u : List Char) (h1 : w.all isDig = true) (h2 : f.all isDig = true) (h3 : w'.all isDig = true) (h4 : f'.all isDig = true)
    (hw : w.length = w'.length) (hf : f.length = f'.length) :
    countText w f u < countText w' f' u ↔ value w * 10 ^ f.length + value f < value w' * 10 ^ f.length + value f' := by
  unfold countText
  rw [numeral_lt _ _ _ _ hw h1 h3]
  have key : (if f = [] then [] else '.' :: f) ++ u < (if f' = [] then [] else '.' :: f') ++ u ↔ value f < value f' := by
    by_cases h0 : f = []
    · have h0' : f' = [] := by
        rw [h0] at hf
        exact List.length_eq_zero_iff.1 hf.symm
      simp [h0, h0']
    · have h0' : f' ≠ [] := by
        intro h; rw [h] at hf
        exact h0 (List.length_eq_zero_iff.1 hf)
      rw [if_neg h0, if_neg h0', List.cons_append, List.cons_append, cons_lt_same, numeral_lt _ _ _ _ hf h2 h4]
      have : ¬ u < u := List.lt_irrefl u
      simp [this]
  rw [key]
  have vf := value_lt f h2
  have vg := value_lt f' h4
  rw [← hf] at vg
  generalize 10 ^ f.length = L at *
  generalize value f = v at *
  generalize value f' = v' at *
  generalize value w = a at *
  generalize value w' = b at *
  rcases Nat.lt_trichotomy a b with h1 | h1 | h1
  · have h2 : (a + 1) * L ≤ b * L := Nat.mul_le_mul_right _ h1
    rw [Nat.add_mul] at h2
    omega
  · subst h1; omega
  · have h2 : (b + 1) * L ≤ a * L := Nat.mul_le_mul_right _ h1
    rw [Nat.add_mul] at h2
    omega

end Verif.Time

namespace Verif.Doc

open Verif.Time

/-- **C18 for clock times**, exactly: with equally many digits for the hours and seconds below sixty, and whatever the fractions, an element is
excluded exactly when its end is before its begin, or the same instant spelled with no more digits.  So the claim fails for such times
in one case only: an empty interval whose end is spelled with more digits than its begin is not excluded.  Missing: hours with different
numbers of digits (`C18_false_hours`), the second sixty (`C18_false_second_sixty`), and other timecounts than those of
`C18_badly_timed_counts_partial`. -/
theorem C18_badly_timed_spelled_partial (a : Att) (hh mm ss fr hh' mm' ss' fr' : List Char) (t u : Int)
    (h : ClockParts hh mm ss fr) (h' : ClockParts hh' mm' ss' fr')
    (hl : hh.length = hh'.length) (hs : value ss < 60) (hs' : value ss' < 60)
    (hb : a.beg = some ⟨clockText hh mm ss fr, t⟩) (he : a.fin = some ⟨clockText hh' mm' ss' fr', u⟩) :
    badly a = true ↔
      Before (clockUnits hh' mm' ss' fr') fr'.length (clockUnits hh mm ss fr) fr.length ∨
      Same (clockUnits hh' mm' ss' fr') fr'.length (clockUnits hh mm ss fr) fr.length ∧ fr'.length ≤ fr.length := by
  unfold badly
  rw [hb, he]
  simp only [Bool.not_eq_true', decide_eq_false_iff_not]
  rw [clockText_lt _ _ _ _ _ _ _ _ h h' hl hs hs']
  unfold Before Same
  omega

/-- **C18 for clock times with equally many digits**: excluded exactly when the end is not after the begin. -/
theorem C18_badly_timed_same_digits_partial (a : Att) (hh mm ss fr hh' mm' ss' fr' : List Char) (t u : Int)
    (h : ClockParts hh mm ss fr) (h' : ClockParts hh' mm' ss' fr')
    (hl : hh.length = hh'.length) (hf : fr.length = fr'.length) (hs : value ss < 60) (hs' : value ss' < 60)
    (hb : a.beg = some ⟨clockText hh mm ss fr, t⟩) (he : a.fin = some ⟨clockText hh' mm' ss' fr', u⟩) :
    badly a = true ↔ clockUnits hh' mm' ss' fr' ≤ clockUnits hh mm ss fr := by
  rw [C18_badly_timed_spelled_partial a _ _ _ _ _ _ _ _ t u h h' hl hs hs' hb he]
  unfold Before Same
  rw [hf]
  have pos : 0 < 10 ^ fr'.length := Nat.pow_pos (by omega)
  generalize 10 ^ fr'.length = L at *
  rw [Nat.mul_lt_mul_right pos, Nat.mul_left_inj (by omega)]
  omega

/-- **C18 for timecounts with the same unit and equally many digits**: excluded exactly when the end is not after the begin. -/
theorem C18_badly_timed_counts_partial (a : Att) (w f w' f' unit : List Char) (t u : Int)
    (h1 : w.all isDig = true) (h2 : f.all isDig = true) (h3 : w'.all isDig = true) (h4 : f'.all isDig = true)
    (hw : w.length = w'.length) (hf : f.length = f'.length)
    (hb : a.beg = some ⟨countText w f unit, t⟩) (he : a.fin = some ⟨countText w' f' unit, u⟩) :
    badly a = true ↔ value w' * 10 ^ f.length + value f' ≤ value w * 10 ^ f.length + value f := by
  unfold badly
  rw [hb, he]
  simp only [Bool.not_eq_true', decide_eq_false_iff_not]
  rw [countText_lt _ _ _ _ _ h1 h2 h3 h4 hw hf]
  omega

/-- The hypotheses are met: `00:00:01.5` to `00:00:01.50`, and `100:00:00` to `099:59:59.9`. -/
example : ClockParts "00".toList "00".toList "01".toList "5".toList ∧ ClockParts "00".toList "00".toList "01".toList "50".toList ∧
    clockText "00".toList "00".toList "01".toList "50".toList = "00:00:01.50".toList ∧
    clockText "099".toList "59".toList "59".toList "9".toList = "099:59:59.9".toList ∧
    badly { kind := .p, beg := some ⟨"100:00:00".toList, 360000000000⟩, fin := some ⟨"099:59:59.9".toList, 359999900000⟩ } = true ∧
    countText "09".toList [] "s".toList = "09s".toList ∧
    badly { kind := .p, beg := some ⟨"09s".toList, 9000000⟩, fin := some ⟨"10s".toList, 10000000⟩ } = false := by
  unfold ClockParts Sixty
  decide

/-- The second sixty: from `00:00:60` to `00:01:00` is an empty interval and not excluded, from `00:01:00` to `00:00:60.5` is excluded. -/
theorem C18_false_second_sixty :
    badly { kind := .p, beg := some ⟨"00:00:60".toList, 60000000⟩, fin := some ⟨"00:01:00".toList, 60000000⟩ } = false ∧
    badly { kind := .p, beg := some ⟨"00:01:00".toList, 60000000⟩, fin := some ⟨"00:00:60.5".toList, 60500000⟩ } = true := by decide

/-- A timecount with more digits: from 1.5s to 1.55s is excluded. -/
theorem C18_false_timecount_digits :
    badly { kind := .p, beg := some ⟨"1.5s".toList, 1500000⟩, fin := some ⟨"1.55s".toList, 1550000⟩ } = true := by decide

end Verif.Doc
