import Verif.Time.Model

/-! Helper lemmas about digits and the clock formats. -/
namespace Verif.Time

theorem dc_facts : ∀ n, n < 10 → isDig (dc n) = true ∧ dval (dc n) = n ∧ dc n ≠ ':' ∧ dc n ≠ '.' ∧
    (dc n).toNat = 48 + n := by decide

theorem digsF_eq : ∀ (f g n : Nat), n < f → n < g → digsF f n = digsF g n := by
  intro f
  induction f with
  | zero => intro g n h; omega
  | succ f ih =>
    intro g n hf hg
    cases g with
    | zero => omega
    | succ g =>
      simp only [digsF]
      split
      · rfl
      · rw [ih g (n / 10) (by omega) (by omega)]

theorem digs_small {n : Nat} (h : n < 10) : digs n = [dc n] := by
  unfold digs digsF; rw [if_pos h]

theorem digs_step {n : Nat} (h : 10 ≤ n) : digs n = digs (n / 10) ++ [dc (n % 10)] := by
  have : digs n = digsF n (n / 10) ++ [dc (n % 10)] := by
    conv => lhs; unfold digs digsF
    rw [if_neg (by omega)]
  rw [this]
  unfold digs
  rw [digsF_eq n (n / 10 + 1) (n / 10) (by omega) (by omega)]

theorem value_append (a b : List Char) : value (a ++ b) = value a * 10 ^ b.length + value b := by
  have key : ∀ (b : List Char) (x : Nat),
      b.foldl (fun a c => 10 * a + dval c) x = x * 10 ^ b.length + value b := by
    intro b
    induction b with
    | nil => intro x; simp [value]
    | cons c cs ih =>
      intro x
      simp only [List.foldl_cons, value, List.length_cons, Nat.mul_zero, Nat.zero_add]
      rw [ih, ih (dval c), Nat.pow_succ]
      have : (10 * x + dval c) * 10 ^ cs.length = x * (10 ^ cs.length * 10) + dval c * 10 ^ cs.length := by
        rw [Nat.add_mul, Nat.mul_comm (10 ^ cs.length) 10, ← Nat.mul_assoc, Nat.mul_comm x 10]
      omega
  unfold value
  rw [List.foldl_append]
  exact key b _

theorem value_zeros (k : Nat) (l : List Char) : value (List.replicate k '0' ++ l) = value l := by
  rw [value_append]
  have : value (List.replicate k '0') = 0 := by
    induction k with
    | zero => rfl
    | succ k ih =>
      rw [List.replicate_succ', value_append, ih]
      simp [value, dval]
  rw [this]; omega

theorem digs_props : ∀ n, value (digs n) = n ∧ (digs n).all isDig = true ∧ digs n ≠ [] := by
  intro n
  induction n using Nat.strongRecOn with
  | _ n ih =>
    rcases Nat.lt_or_ge n 10 with h | h
    · rw [digs_small h]
      obtain ⟨h1, h2, _⟩ := dc_facts n h
      refine ⟨by simp [value, h2], by simp [h1], by simp⟩
    · rw [digs_step h]
      obtain ⟨g1, g2, g3⟩ := ih (n / 10) (by omega)
      obtain ⟨h1, h2, _⟩ := dc_facts (n % 10) (by omega)
      refine ⟨?_, ?_, by simp⟩
      · rw [value_append, g1]
        simp [value, h2]
        omega
      · rw [List.all_append, g2]; simp [h1]

theorem pad_props (w n : Nat) : value (pad w n) = n ∧ (pad w n).all isDig = true ∧ pad w n ≠ [] := by
  obtain ⟨h1, h2, h3⟩ := digs_props n
  unfold pad
  refine ⟨by rw [value_zeros, h1], ?_, by simp [h3]⟩
  rw [List.all_append, h2]
  simp [isDig]

theorem pad_length (w n : Nat) : w ≤ (pad w n).length := by
  unfold pad; simp; omega

theorem pad_two {n : Nat} (h : n < 100) : pad 2 n = [dc (n / 10), dc (n % 10)] := by
  unfold pad
  rcases Nat.lt_or_ge n 10 with h1 | h1
  · rw [digs_small h1]
    have : n / 10 = 0 := by omega
    have : n % 10 = n := by omega
    simp [*, dc]
  · rw [digs_step h1, digs_small (by omega)]
    simp

theorem pad_three {n : Nat} (h : n < 1000) : pad 3 n = [dc (n / 100), dc (n / 10 % 10), dc (n % 10)] := by
  unfold pad
  rcases Nat.lt_or_ge n 10 with h1 | h1
  · rw [digs_small h1]
    have e1 : n / 10 = 0 := by omega
    have e2 : n / 100 = 0 := by omega
    have e3 : n % 10 = n := by omega
    rw [e1, e2, e3]
    rfl
  · rcases Nat.lt_or_ge n 100 with h2 | h2
    · rw [digs_step h1, digs_small (by omega)]
      have e1 : n / 10 % 10 = n / 10 := by omega
      have e2 : n / 100 = 0 := by omega
      rw [e1, e2]
      rfl
    · rw [digs_step h1, digs_step (n := n / 10) (by omega), digs_small (by omega)]
      have e2 : n / 10 / 10 = n / 100 := by omega
      rw [e2]
      simp

theorem takeWhile_all {p : Char → Bool} {a b : List Char} {c : Char} (ha : a.all p = true)
    (hc : p c = false) : (a ++ c :: b).takeWhile p = a ∧ (a ++ c :: b).dropWhile p = c :: b := by
  induction a with
  | nil => simp [hc]
  | cons x xs ih =>
    rw [List.all_cons, Bool.and_eq_true] at ha
    obtain ⟨h1, h2⟩ := ih ha.2
    simp [ha.1, h1, h2]

theorem takeWhile_full {p : Char → Bool} {a : List Char} (ha : a.all p = true) : a.takeWhile p = a := by
  induction a with
  | nil => rfl
  | cons x xs ih =>
    rw [List.all_cons, Bool.and_eq_true] at ha
    simp [ha.1, ih ha.2]

/-- Members of a non-negative time, as natural numbers. -/
theorem members_nat {t : Int} (h : 0 ≤ t) : ∃ hh mm ss ms us : Nat, members t = ((hh : Int), (mm : Int), (ss : Int), (ms : Int)) ∧
    mm < 60 ∧ ss < 60 ∧ ms < 1000 ∧ us < 1000 ∧
    t = (hh : Int) * 3600000000 + mm * 60000000 + ss * 1000000 + ms * 1000 + us := by
  obtain ⟨n, rfl⟩ := Int.eq_ofNat_of_zero_le h
  refine ⟨(n / 1000000 % 86400) / 3600 + n / 1000000 / 86400 * 24, (n / 1000000 % 86400) % 3600 / 60,
    (n / 1000000 % 86400) % 3600 % 60, n % 1000000 / 1000, n % 1000, ?_, ?_, ?_, ?_, ?_, ?_⟩
  · simp only [members, Prod.mk.injEq]; omega
  all_goals omega

theorem fmtInt_nat (w n : Nat) : fmtInt w (n : Int) = pad w n := by
  unfold fmtInt; rw [if_neg (by omega)]; simp

/-- Reading back minutes, seconds and fraction. -/
theorem parseRest_written {mm ss : Nat} (hm : mm < 60) (hs : ss < 60) {fr : List Char}
    (hfr : fr.all isDig = true) (tail : List Char)
    (htail : tail = '.' :: fr ∨ tail = [] ∧ fr = []) :
    parseRest (':' :: (pad 2 mm ++ ':' :: (pad 2 ss ++ tail))) = some (mm, ss, fr) := by
  rw [pad_two (by omega), pad_two (by omega)]
  obtain ⟨a1, a2, _⟩ := dc_facts (mm / 10) (by omega)
  obtain ⟨b1, b2, _⟩ := dc_facts (mm % 10) (by omega)
  obtain ⟨c1, c2, _⟩ := dc_facts (ss / 10) (by omega)
  obtain ⟨d1, d2, _⟩ := dc_facts (ss % 10) (by omega)
  simp only [List.cons_append, List.nil_append, parseRest]
  rw [if_pos (by refine ⟨?_, ?_, a1, by omega, b1, .inl ⟨c1, by omega, d1⟩⟩ <;> first | rfl | trivial)]
  rw [a2, b2, c2, d2]
  have e1 : 10 * (mm / 10) + mm % 10 = mm := by omega
  have e2 : 10 * (ss / 10) + ss % 10 = ss := by omega
  rw [e1, e2]
  rcases htail with rfl | ⟨rfl, rfl⟩
  · simp [takeWhile_full hfr]
  · rfl

/-- Reading back a three digit fraction is exact. -/
theorem frac_exact {rd : Reader} (hrd : rd.Accurate) {ms : Nat} (hms : ms < 1000) :
    rd.frac (pad 3 ms) = (ms : Int) * 1000 := by
  obtain ⟨h1, h2, h3⟩ := pad_props 3 ms
  obtain ⟨g1, g2⟩ := hrd.frac (pad 3 ms) h2 h3
  rw [h1] at g1 g2
  have hl : (pad 3 ms).length = 3 := by rw [pad_three hms]; rfl
  rw [hl] at g1 g2
  omega

end Verif.Time
