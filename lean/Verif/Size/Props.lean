import Verif.Size.Model
import Verif.Time.Lemmas

/-!
# C69: size values mean what they say

The specification is the text form of a size: decimal digits with an optional fraction, an optional sign, and the unit.
-/
namespace Verif.Size

open Verif.Time (isDig value)
open Verif.Style (Dim)

/-! ### Specification -/

/-- Digits, or digits with a fraction; nothing needs to stand before the dot. -/
inductive Decimal : List Char → Rat → Prop
  | whole {ds : List Char} : ds ≠ [] → ds.all isDig = true → Decimal ds (value ds)
  | frac {ds fs : List Char} : ds.all isDig = true → fs ≠ [] → fs.all isDig = true →
      Decimal (ds ++ '.' :: fs) (value ds + value fs / 10 ^ fs.length)

/-- A decimal with an optional sign. -/
inductive Signed : List Char → Rat → Prop
  | bare {t : List Char} {n : Rat} : Decimal t n → Signed t n
  | plus {t : List Char} {n : Rat} : Decimal t n → Signed ('+' :: t) n
  | minus {t : List Char} {n : Rat} : Decimal t n → Signed ('-' :: t) (-n)

/-- `text` is the size `n` in unit `u`. -/
def Length (u : Measure) (text : List Char) (n : Rat) : Prop := ∃ t, text = t ++ u.text ∧ Signed t n

/-- `text` is two sizes with a space between. -/
def Pair (u : Measure) (text : List Char) (h v : Rat) : Prop := ∃ a b, text = a ++ ' ' :: b ∧ Length u a h ∧ Length u b v

/-! ### Lemmas -/

theorem takeWhile_append_all {p : Char → Bool} : ∀ {a b : List Char}, a.all p = true → (∀ c ∈ b.head?, p c = false) →
    (a ++ b).takeWhile p = a ∧ (a ++ b).dropWhile p = b
  | [], [], _, _ => by simp
  | [], c :: b, _, h => by
    have := h c (by simp)
    simp [this]
  | x :: a, b, ha, hb => by
    simp only [List.all_cons, Bool.and_eq_true] at ha
    have ih := takeWhile_append_all ha.2 hb
    simp [ha.1, ih.1, ih.2]

theorem all_takeWhile (p : Char → Bool) : ∀ l : List Char, (l.takeWhile p).all p = true
  | [] => rfl
  | c :: l => by
    rw [List.takeWhile_cons]
    split
    · rename_i h; simp only [List.all_cons, h, all_takeWhile p l, Bool.and_self]
    · rfl

theorem number_sound {l r : List Char} {n : Rat} (h : number l = some (n, r)) : ∃ t, l = t ++ r ∧ Decimal t n := by
  have hl : l = l.takeWhile isDig ++ l.dropWhile isDig := (List.takeWhile_append_dropWhile).symm
  unfold number at h
  split at h
  · rename_i r' hd
    have hr : r' = r'.takeWhile isDig ++ r'.dropWhile isDig := (List.takeWhile_append_dropWhile).symm
    split at h
    · split at h
      · cases h
      · rename_i hne
        simp only [Option.some.injEq, Prod.mk.injEq] at h
        refine ⟨l.takeWhile isDig, by rw [← h.2, ← hd]; exact hl, ?_⟩
        rw [← h.1]
        exact .whole hne (all_takeWhile _ _)
    · rename_i hne
      simp only [Option.some.injEq, Prod.mk.injEq] at h
      refine ⟨l.takeWhile isDig ++ '.' :: r'.takeWhile isDig, ?_, ?_⟩
      · rw [← h.2, List.append_assoc, List.cons_append, ← hr, ← hd]; exact hl
      · rw [← h.1]
        exact .frac (all_takeWhile _ _) hne (all_takeWhile _ _)
  · split at h
    · cases h
    · rename_i hne
      simp only [Option.some.injEq, Prod.mk.injEq] at h
      refine ⟨l.takeWhile isDig, by rw [← h.2]; exact hl, ?_⟩
      rw [← h.1]
      exact .whole hne (all_takeWhile _ _)

theorem number_complete {t r : List Char} {n : Rat} (h : Decimal t n) (hr : ∀ c ∈ r.head?, isDig c = false ∧ c ≠ '.') :
    number (t ++ r) = some (n, r) := by
  cases h with
  | whole hne hall =>
    have h1 := takeWhile_append_all (b := r) hall (fun c hc => (hr c hc).1)
    unfold number
    rw [h1.1, h1.2]
    split
    · rename_i r' he
      exact absurd rfl (hr '.' (by simp)).2
    · rw [if_neg hne]
  | frac hall hne hfall =>
    rename_i ds fs
    have h1 := takeWhile_append_all (a := ds) (b := '.' :: (fs ++ r)) hall (by simp; decide)
    have h2 := takeWhile_append_all (a := fs) (b := r) hfall (fun c hc => (hr c hc).1)
    unfold number
    rw [List.append_assoc, List.cons_append, h1.1, h1.2]
    simp only
    rw [h2.1, h2.2, if_neg hne]

theorem decimal_head {t : List Char} {n : Rat} (h : Decimal t n) : ∃ c r, t = c :: r ∧ (isDig c = true ∨ c = '.') := by
  cases h with
  | whole hne hall =>
    cases t with
    | nil => exact absurd rfl hne
    | cons c r => exact ⟨c, r, rfl, .inl (by simp at hall; exact hall.1)⟩
  | @frac ds fs hall _ _ =>
    cases ds with
    | nil => exact ⟨'.', fs, rfl, .inr rfl⟩
    | cons c r => exact ⟨c, _, rfl, .inl (by simp at hall; exact hall.1)⟩

theorem decimal_chars {t : List Char} {n : Rat} (h : Decimal t n) : ∀ c ∈ t, isDig c = true ∨ c = '.' := by
  intro c hc
  cases h with
  | whole _ hall => exact .inl (List.all_eq_true.1 hall c hc)
  | frac hd _ hf =>
    rcases List.mem_append.1 hc with h | h
    · exact .inl (List.all_eq_true.1 hd c h)
    · rcases List.mem_cons.1 h with h | h
      · exact .inr h
      · exact .inl (List.all_eq_true.1 hf c h)

theorem decimal_nonneg {t : List Char} {n : Rat} (h : Decimal t n) : 0 ≤ n := by
  cases h with
  | whole _ _ => exact Rat.natCast_nonneg
  | frac _ _ _ =>
    refine Rat.add_nonneg Rat.natCast_nonneg ?_
    rw [Rat.div_def]
    refine Rat.mul_nonneg Rat.natCast_nonneg ?_
    exact Rat.le_of_lt (Rat.inv_pos.2 (Rat.pow_pos (by decide)))

/-- Optional sign of the given ones, then a decimal. -/
def SignedIn (signs t : List Char) (n : Rat) : Prop := Decimal t n ∨ ∃ c ∈ signs, ∃ t', t = c :: t' ∧ Decimal t' n

theorem after_some {u l r : List Char} : after u l = some r ↔ l = u ++ r := by
  unfold after
  constructor
  · intro h
    split at h
    · rename_i hp
      obtain ⟨s, hs⟩ := List.isPrefixOf_iff_prefix.1 hp
      subst hs
      simp at h
      rw [h]
    · cases h
  · rintro rfl
    rw [if_pos (by simp [List.isPrefixOf_iff_prefix])]
    simp

theorem unit_head (u : Measure) : ∃ c r, u.text = c :: r ∧ isDig c = false ∧ c ≠ '.' := by
  cases u
  · exact ⟨'c', [], rfl, by decide, by decide⟩
  · exact ⟨'p', ['x'], rfl, by decide, by decide⟩
  · exact ⟨'%', [], rfl, by decide, by decide⟩

theorem part_iff {signs l r : List Char} {u : Measure} {n : Rat} (hs : ∀ c ∈ signs, isDig c = false ∧ c ≠ '.') :
    part signs u l = some (n, r) ↔ ∃ t, l = t ++ (u.text ++ r) ∧ SignedIn signs t n := by
  constructor
  · intro h
    unfold part at h
    split at h
    · cases h
    · rename_i n' r' hn
      split at h
      · cases h
      · rename_i r'' ha
        simp only [Option.some.injEq, Prod.mk.injEq] at h
        obtain ⟨t, ht, hd⟩ := number_sound hn
        rw [after_some.1 ha, h.2] at ht
        rw [h.1] at hd
        cases l with
        | nil => exact ⟨t, ht, .inl hd⟩
        | cons c l =>
          rw [dropSign] at ht
          split at ht
          · rename_i hc
            exact ⟨c :: t, by rw [ht]; rfl, .inr ⟨c, hc, t, rfl, hd⟩⟩
          · exact ⟨t, ht, .inl hd⟩
  · rintro ⟨t, rfl, ht⟩
    have hd : ∃ t', dropSign signs (t ++ (u.text ++ r)) = t' ++ (u.text ++ r) ∧ Decimal t' n := by
      rcases ht with ht | ⟨c, hc, t', rfl, ht⟩
      · obtain ⟨c, s, rfl, hcs⟩ := decimal_head ht
        refine ⟨c :: s, ?_, ht⟩
        rw [List.cons_append, dropSign, if_neg]
        intro hm
        rcases hcs with h | h
        · rw [(hs c hm).1] at h; cases h
        · exact (hs c hm).2 h
      · exact ⟨t', by rw [List.cons_append, dropSign, if_pos hc], ht⟩
    obtain ⟨t', hd, ht'⟩ := hd
    have : number (t' ++ (u.text ++ r)) = some (n, u.text ++ r) := by
      apply number_complete ht'
      obtain ⟨c, s, hu, h1, h2⟩ := unit_head u
      rw [hu]
      intro c' hc'
      simp at hc'
      rw [← hc']
      exact ⟨h1, h2⟩
    unfold part
    rw [hd, this]
    simp only
    rw [after_some.2 rfl]

theorem readPair_iff {signs l : List Char} {u : Measure} {h v : Rat} (hs : ∀ c ∈ signs, isDig c = false ∧ c ≠ '.') :
    readPair signs u l = some (h, v) ↔ ∃ a b, l = (a ++ u.text) ++ ' ' :: (b ++ u.text) ∧ SignedIn signs a h ∧ SignedIn signs b v := by
  constructor
  · intro hr
    unfold readPair at hr
    split at hr
    · rename_i h' r hp
      split at hr
      · rename_i v' hp2
        simp only [Option.some.injEq, Prod.mk.injEq] at hr
        obtain ⟨a, ha, hsa⟩ := (part_iff hs).1 hp
        obtain ⟨b, hb, hsb⟩ := (part_iff hs).1 hp2
        rw [hr.1] at hsa
        rw [hr.2] at hsb
        refine ⟨a, b, ?_, hsa, hsb⟩
        rw [ha, hb]
        simp
      · cases hr
    · cases hr
  · rintro ⟨a, b, rfl, ha, hb⟩
    have h1 : part signs u ((a ++ u.text) ++ ' ' :: (b ++ u.text)) = some (h, ' ' :: (b ++ u.text)) :=
      (part_iff hs).2 ⟨a, by simp, ha⟩
    have h2 : part signs u (b ++ u.text) = some (v, []) := (part_iff hs).2 ⟨b, by simp, hb⟩
    unfold readPair
    rw [h1]
    simp only
    rw [h2]

theorem readDim_iff {signs l : List Char} {u : Measure} {d : Dim} (hs : ∀ c ∈ signs, isDig c = false ∧ c ≠ '.') :
    readDim signs u l = some d ↔ (d.h = none ∧ ∃ t, l = t ++ u.text ∧ SignedIn signs t d.v) ∨
      ∃ h, d.h = some h ∧ readPair signs u l = some (h, d.v) := by
  unfold readDim readPair
  cases hp : part signs u l with
  | none =>
    simp only [reduceCtorEq, false_iff, not_or, not_and, not_exists]
    constructor
    · intro _ t ht hst
      rw [(part_iff (r := []) hs).2 ⟨t, by simpa using ht, hst⟩] at hp
      cases hp
    · intro h _; simp
  | some x =>
    obtain ⟨n, r⟩ := x
    have key : ∀ t v, l = t ++ u.text → SignedIn signs t v → n = v ∧ r = [] := by
      intro t v ht hst
      rw [(part_iff (r := []) hs).2 ⟨t, by simpa using ht, hst⟩] at hp
      simp at hp
      exact ⟨hp.1.symm, hp.2⟩
    cases r with
    | nil =>
      simp only [Option.some.injEq]
      constructor
      · intro h
        rw [← h]
        obtain ⟨t, ht, hst⟩ := (part_iff hs).1 hp
        exact .inl ⟨rfl, t, by simpa using ht, hst⟩
      · rintro (⟨h1, t, ht, hst⟩ | ⟨h, _, h2⟩)
        · obtain ⟨h3, _⟩ := key t _ ht hst
          cases d
          simp only at h1 h3
          rw [h1, h3]
        · cases h2
    | cons c r =>
      by_cases hc : c = ' '
      · rw [hc] at hp ⊢
        simp only
        constructor
        · intro h
          cases hp2 : part signs u r with
          | none => rw [hp2] at h; cases h
          | some y =>
            obtain ⟨m, r2⟩ := y
            rw [hp2] at h
            cases r2 with
            | nil =>
              simp only [Option.some.injEq] at h
              right
              exact ⟨n, by rw [← h], by rw [← h]⟩
            | cons _ _ => cases h
        · rintro (⟨_, t, ht, hst⟩ | ⟨h, h1, h2⟩)
          · exact absurd (key t _ ht hst).2 (by simp)
          · cases hp2 : part signs u r with
            | none => rw [hp2] at h2; cases h2
            | some y =>
              obtain ⟨m, r2⟩ := y
              rw [hp2] at h2
              cases r2 with
              | nil =>
                simp only [Option.some.injEq, Prod.mk.injEq] at h2 ⊢
                cases d
                simp only at h1 h2
                rw [h1, h2.1, h2.2]
              | cons _ _ => cases h2
      · constructor
        · intro h
          split at h
          · rename_i he; simp at he
          · rename_i he
            simp only [Option.some.injEq, Prod.mk.injEq, List.cons.injEq] at he
            exact absurd he.2.1 hc
          · cases h
        · rintro (⟨_, t, ht, hst⟩ | ⟨h, _, h2⟩)
          · exact absurd (key t _ ht hst).2 (by simp)
          · split at h2
            · rename_i he
              simp only [Option.some.injEq, Prod.mk.injEq, List.cons.injEq] at he
              exact absurd he.2.1 hc
            · cases h2

/-- The last character tells the unit. -/
theorem unit_last {u u' : Measure} {a b : List Char} (h : a ++ u.text = b ++ u'.text) : u = u' := by
  have := congrArg List.getLast? h
  cases u <;> cases u' <;> simp [Measure.text, List.getLast?_append] at this ⊢

theorem union_iff {α : Type} {f : Measure → Option α} {us : List Measure} {u : Measure} {x : α} (hu : u ∈ us)
    (h1 : ∀ u' x', f u' = some x' → ∀ u'' x'', f u'' = some x'' → u' = u'') : union f us = some (u, x) ↔ f u = some x := by
  induction us with
  | nil => cases hu
  | cons w us ih =>
    unfold union
    cases hw : f w with
    | some y =>
      simp only [Option.some.injEq, Prod.mk.injEq]
      constructor
      · rintro ⟨rfl, rfl⟩; exact hw
      · intro hx
        have := h1 w y hw u x hx
        subst this
        rw [hw] at hx
        simp only [Option.some.injEq] at hx
        exact ⟨rfl, hx⟩
    | none =>
      simp only
      rcases List.mem_cons.1 hu with h | h
      · rw [← h] at hw
        rw [hw]
        constructor
        · intro h'
          have : ∀ (us : List Measure), union f us = some (u, x) → f u = some x := by
            intro us
            induction us with
            | nil => intro h; cases h
            | cons z us ihz =>
              intro h
              unfold union at h
              cases hz : f z with
              | some y =>
                rw [hz] at h
                simp only [Option.some.injEq, Prod.mk.injEq] at h
                rw [← h.1, ← h.2]; exact hz
              | none => rw [hz] at h; exact ihz h
          have := this us h'
          rw [hw] at this
          exact this
        · intro h'; cases h'
      · exact ih h

theorem signedIn_plus {t : List Char} {n : Rat} : SignedIn ['+'] t n ↔ Signed t n ∧ '-' ∉ t := by
  have nominus : ∀ {t n}, Decimal t n → '-' ∉ t := by
    intro t n h hm
    rcases decimal_chars h '-' hm with h | h <;> exact absurd h (by decide)
  constructor
  · rintro (h | ⟨c, hc, t', rfl, h⟩)
    · exact ⟨.bare h, nominus h⟩
    · rw [List.mem_singleton] at hc
      subst hc
      exact ⟨.plus h, by rw [List.mem_cons, not_or]; exact ⟨by decide, nominus h⟩⟩
  · rintro ⟨h, hm⟩
    cases h with
    | bare h => exact .inl h
    | plus h => exact .inr ⟨'+', by simp, _, rfl, h⟩
    | minus h => exact absurd (by simp) hm

theorem signedIn_none {t : List Char} {n : Rat} : SignedIn [] t n ↔ Decimal t n := by
  constructor
  · rintro (h | ⟨c, hc, _⟩)
    · exact h
    · cases hc
  · exact .inl

theorem signedIn_both {t : List Char} {n : Rat} : SignedIn ['+', '-'] t n ↔ ∃ m, Signed t m ∧ n = m.abs := by
  constructor
  · rintro (h | ⟨c, hc, t', rfl, h⟩)
    · exact ⟨n, .bare h, (Rat.abs_of_nonneg (decimal_nonneg h)).symm⟩
    · simp only [List.mem_cons, List.not_mem_nil, or_false] at hc
      rcases hc with rfl | rfl
      · exact ⟨n, .plus h, (Rat.abs_of_nonneg (decimal_nonneg h)).symm⟩
      · exact ⟨-n, .minus h, by rw [Rat.abs_neg, Rat.abs_of_nonneg (decimal_nonneg h)]⟩
  · rintro ⟨m, h, rfl⟩
    cases h with
    | bare h => rw [Rat.abs_of_nonneg (decimal_nonneg h)]; exact .inl h
    | plus h => rw [Rat.abs_of_nonneg (decimal_nonneg h)]; exact .inr ⟨'+', by simp, _, rfl, h⟩
    | minus h =>
      rw [Rat.abs_neg, Rat.abs_of_nonneg (decimal_nonneg h)]
      exact .inr ⟨'-', by simp, _, rfl, h⟩

theorem signs_plus : ∀ c ∈ ['+'], isDig c = false ∧ c ≠ '.' := by decide
theorem signs_both : ∀ c ∈ ['+', '-'], isDig c = false ∧ c ≠ '.' := by decide

theorem readPair_unit {signs l : List Char} (hs : ∀ c ∈ signs, isDig c = false ∧ c ≠ '.') :
    ∀ u x, readPair signs u l = some x → ∀ u' x', readPair signs u' l = some x' → u = u' := by
  intro u x h u' x' h'
  obtain ⟨a, b, hl, _⟩ := (readPair_iff (h := x.1) (v := x.2) hs).1 h
  obtain ⟨a', b', hl', _⟩ := (readPair_iff (h := x'.1) (v := x'.2) hs).1 h'
  rw [hl] at hl'
  refine unit_last (a := (a ++ u.text) ++ ' ' :: b) (b := (a' ++ u'.text) ++ ' ' :: b') ?_
  simpa using hl'

theorem readDim_unit {signs l : List Char} (hs : ∀ c ∈ signs, isDig c = false ∧ c ≠ '.') :
    ∀ u x, readDim signs u l = some x → ∀ u' x', readDim signs u' l = some x' → u = u' := by
  have ends : ∀ u x, readDim signs u l = some x → ∃ a, l = a ++ u.text := by
    intro u x h
    rcases (readDim_iff hs).1 h with ⟨_, t, ht, _⟩ | ⟨y, _, hp⟩
    · exact ⟨t, ht⟩
    · obtain ⟨a, b, hl, _⟩ := (readPair_iff hs).1 hp
      exact ⟨(a ++ u.text) ++ ' ' :: b, by rw [hl]; simp⟩
  intro u x h u' x' h'
  obtain ⟨a, ha⟩ := ends u x h
  obtain ⟨b, hb⟩ := ends u' x' h'
  exact unit_last (ha.symm.trans hb)

theorem readOne_iff {l : List Char} {u : Measure} {n : Rat} : readOne u l = some n ↔ ∃ t, l = t ++ u.text ∧ Decimal t n := by
  have hs : ∀ c ∈ ([] : List Char), isDig c = false ∧ c ≠ '.' := by simp
  constructor
  · intro h
    unfold readOne at h
    split at h
    · rename_i v hp
      simp only [Option.some.injEq] at h
      obtain ⟨t, ht, hd⟩ := (part_iff hs).1 hp
      rw [h] at hd
      exact ⟨t, by simpa using ht, signedIn_none.1 hd⟩
    · cases h
  · rintro ⟨t, rfl, hd⟩
    unfold readOne
    rw [(part_iff (r := []) hs).2 ⟨t, by simp, signedIn_none.2 hd⟩]

theorem unit_mem (u : Measure) : u ∈ [Measure.cell, .px, .pct] ∧ u ∈ [Measure.cell, .pct, .px] ∧ u ∈ [Measure.pct, .cell, .px] := by
  cases u <;> simp

theorem minus_unit (u : Measure) : '-' ∉ u.text := by cases u <;> decide

/-- A pair without minus signs. -/
theorem pair_plus {u : Measure} {text : List Char} {h v : Rat} :
    (∃ a b, text = (a ++ u.text) ++ ' ' :: (b ++ u.text) ∧ SignedIn ['+'] a h ∧ SignedIn ['+'] b v) ↔
      Pair u text h v ∧ '-' ∉ text := by
  constructor
  · rintro ⟨a, b, rfl, ha, hb⟩
    rw [signedIn_plus] at ha hb
    refine ⟨⟨_, _, rfl, ⟨a, rfl, ha.1⟩, ⟨b, rfl, hb.1⟩⟩, ?_⟩
    simp only [List.mem_append, List.mem_cons, not_or]
    exact ⟨⟨ha.2, minus_unit u⟩, by decide, hb.2, minus_unit u⟩
  · rintro ⟨⟨_, _, rfl, ⟨a, rfl, ha⟩, ⟨b, rfl, hb⟩⟩, hm⟩
    simp only [List.mem_append, List.mem_cons, not_or] at hm
    exact ⟨a, b, rfl, signedIn_plus.2 ⟨ha, hm.1.1⟩, signedIn_plus.2 ⟨hb, hm.2.2.1⟩⟩

/-! ### C69 -/

/-- **C69**, font sizes: exactly the texts made of one or two sizes of the same unit without minus sign are taken, with the unit
and the sizes they say; a single size is the vertical one. -/
theorem C69_font_sizes (text : List Char) (u : Measure) (d : Dim) : readFont text = some (u, d) ↔
    '-' ∉ text ∧ ((d.h = none ∧ Length u text d.v) ∨ ∃ h, d.h = some h ∧ Pair u text h d.v) := by
  unfold readFont
  rw [union_iff (unit_mem u).2.1 (readDim_unit signs_plus), readDim_iff signs_plus]
  constructor
  · rintro (⟨h1, t, rfl, ht⟩ | ⟨h, h1, h2⟩)
    · rw [signedIn_plus] at ht
      refine ⟨?_, .inl ⟨h1, t, rfl, ht.1⟩⟩
      rw [List.mem_append, not_or]
      exact ⟨ht.2, minus_unit u⟩
    · have := pair_plus.1 ((readPair_iff signs_plus).1 h2)
      exact ⟨this.2, .inr ⟨h, h1, this.1⟩⟩
  · rintro ⟨hm, ⟨h1, t, rfl, ht⟩ | ⟨h, h1, h2⟩⟩
    · rw [List.mem_append, not_or] at hm
      exact .inl ⟨h1, t, rfl, signedIn_plus.2 ⟨ht, hm.1⟩⟩
    · exact .inr ⟨h, h1, (readPair_iff signs_plus).2 (pair_plus.2 ⟨h2, hm⟩)⟩

/-- **C69**, extents: exactly the texts made of two sizes of the same unit without minus sign. -/
theorem C69_extents (text : List Char) (u : Measure) (h v : Rat) : readExtent text = some (u, h, v) ↔
    '-' ∉ text ∧ Pair u text h v := by
  unfold readExtent
  rw [union_iff (unit_mem u).2.1 (readPair_unit signs_plus), readPair_iff signs_plus, pair_plus, and_comm]

/-- **C69**, origins: exactly the texts made of two sizes of the same unit are taken; what is read is the sizes without their
signs. -/
theorem C69_origins (text : List Char) (u : Measure) (h v : Rat) : readOrigin text = some (u, h, v) ↔
    ∃ h' v', Pair u text h' v' ∧ h = h'.abs ∧ v = v'.abs := by
  unfold readOrigin
  rw [union_iff (unit_mem u).1 (readPair_unit signs_both), readPair_iff signs_both]
  constructor
  · rintro ⟨a, b, rfl, ha, hb⟩
    obtain ⟨h', ha', hh⟩ := signedIn_both.1 ha
    obtain ⟨v', hb', hv⟩ := signedIn_both.1 hb
    exact ⟨h', v', ⟨_, _, rfl, ⟨a, rfl, ha'⟩, ⟨b, rfl, hb'⟩⟩, hh, hv⟩
  · rintro ⟨h', v', ⟨_, _, rfl, ⟨a, rfl, ha⟩, ⟨b, rfl, hb⟩⟩, rfl, rfl⟩
    exact ⟨a, b, rfl, signedIn_both.2 ⟨h', ha, rfl⟩, signedIn_both.2 ⟨v', hb, rfl⟩⟩

/-- **C69**, origins: without minus signs what is read is what is written.  Missing: origins with a minus sign
(`C69_false_negative_origin`). -/
theorem C69_origins_partial (text : List Char) (hm : '-' ∉ text) (u : Measure) (h v : Rat) :
    readOrigin text = some (u, h, v) ↔ Pair u text h v := by
  have nonneg : ∀ {a : List Char} {n : Rat}, Length u a n → '-' ∉ a → n = n.abs := by
    rintro a n ⟨t, rfl, ht⟩ ha
    rw [List.mem_append, not_or] at ha
    cases ht with
    | bare h => exact (Rat.abs_of_nonneg (decimal_nonneg h)).symm
    | plus h => exact (Rat.abs_of_nonneg (decimal_nonneg h)).symm
    | minus h => exact absurd (by simp) ha.1
  rw [C69_origins]
  constructor
  · rintro ⟨h', v', ⟨a, b, rfl, ha, hb⟩, rfl, rfl⟩
    simp only [List.mem_append, List.mem_cons, not_or] at hm
    rw [← nonneg ha hm.1, ← nonneg hb hm.2.2]
    exact ⟨a, b, rfl, ha, hb⟩
  · rintro ⟨a, b, rfl, ha, hb⟩
    simp only [List.mem_append, List.mem_cons, not_or] at hm
    exact ⟨h, v, ⟨a, b, rfl, ha, hb⟩, nonneg ha hm.1, nonneg hb hm.2.2⟩

/-- The sign of an origin is lost: five percent to the left is read as five percent to the right. -/
theorem C69_false_negative_origin : readOrigin "-5% 10%".toList = some (.pct, 5, 10) ∧ Pair .pct "-5% 10%".toList (-5) 10 := by
  refine ⟨by decide +kernel, "-5%".toList, "10%".toList, by decide, ⟨"-5".toList, by decide, ?_⟩, ⟨"10".toList, by decide, ?_⟩⟩
  · exact .minus (.whole (ds := "5".toList) (by decide) (by decide))
  · exact .bare (.whole (ds := "10".toList) (by decide) (by decide))

/-- **C69**, line heights: exactly `normal` and the texts made of one size without sign. -/
theorem C69_line_heights (text : List Char) : readLine text = some none ↔ text = "normal".toList := by
  constructor
  · intro h
    unfold readLine at h
    split at h
    · simp at h
    · split at h
      · assumption
      · cases h
  · rintro rfl; decide +kernel

theorem C69_line_height_values (text : List Char) (u : Measure) (n : Rat) : readLine text = some (some (u, n)) ↔
    ∃ t, text = t ++ u.text ∧ Decimal t n := by
  have hu : ∀ u x, readOne u text = some x → ∀ u' x', readOne u' text = some x' → u = u' := by
    intro u x h u' x' h'
    obtain ⟨t, ht, _⟩ := readOne_iff.1 h
    obtain ⟨t', ht', _⟩ := readOne_iff.1 h'
    exact unit_last (ht.symm.trans ht')
  have key : union (fun u => readOne u text) [.pct, .cell, .px] = some (u, n) ↔ readOne u text = some n :=
    union_iff (unit_mem u).2.2 hu
  rw [← readOne_iff, ← key]
  unfold readLine
  cases union (fun u => readOne u text) [.pct, .cell, .px] with
  | some y => simp
  | none =>
    simp only [reduceCtorEq, iff_false]
    split <;> simp

/-- **C69**: a size has one unit: no text is a font size, an extent or an origin in two units. -/
theorem C69_one_unit (text : List Char) (u u' : Measure) :
    (∀ d d', readDim ['+'] u text = some d → readDim ['+'] u' text = some d' → u = u') ∧
    (∀ x x', readPair ['+', '-'] u text = some x → readPair ['+', '-'] u' text = some x' → u = u') :=
  ⟨fun d d' h h' => readDim_unit signs_plus u d h u' d' h', fun x x' h h' => readPair_unit signs_both u x h u' x' h'⟩

theorem positive_iff {l r : List Char} {n : Rat} (hr : ∀ c ∈ r.head?, isDig c = false) : positive l = some (n, r) ↔
    ∃ ds, l = ds ++ r ∧ ds ≠ [] ∧ ds.all isDig = true ∧ value ds ≠ 0 ∧ n = value ds := by
  constructor
  · intro h
    unfold positive at h
    split at h
    · cases h
    · rename_i hn
      simp only [Option.some.injEq, Prod.mk.injEq] at h
      rw [not_or] at hn
      exact ⟨l.takeWhile isDig, by rw [← h.2]; exact (List.takeWhile_append_dropWhile).symm, hn.1, all_takeWhile _ _, hn.2, h.1.symm⟩
  · rintro ⟨ds, rfl, hne, hall, hv, rfl⟩
    have h1 := takeWhile_append_all (b := r) hall hr
    unfold positive
    rw [h1.1, h1.2, if_neg (by rw [not_or]; exact ⟨hne, hv⟩)]

/-- **C69**, the cell resolution: two whole numbers, of which neither is zero, so that dividing by them is possible. -/
theorem C69_resolution (text : List Char) (h v : Rat) : readResolution text = some (h, v) ↔
    ∃ a b, text = a ++ ' ' :: b ∧ (a ≠ [] ∧ a.all isDig = true ∧ value a ≠ 0 ∧ h = value a) ∧
      (b ≠ [] ∧ b.all isDig = true ∧ value b ≠ 0 ∧ v = value b) := by
  have hsp : ∀ r : List Char, ∀ c ∈ (' ' :: r).head?, isDig c = false := by
    intro r c hc
    simp at hc
    rw [← hc]; decide
  constructor
  · intro hr
    unfold readResolution at hr
    split at hr
    · rename_i h' r hp
      split at hr
      · rename_i v' hp2
        simp only [Option.some.injEq, Prod.mk.injEq] at hr
        obtain ⟨a, ha, h1, h2, h3, h4⟩ := (positive_iff (hsp r)).1 hp
        obtain ⟨b, hb, g1, g2, g3, g4⟩ := (positive_iff (by simp)).1 hp2
        rw [List.append_nil] at hb
        exact ⟨a, b, by rw [ha, hb], ⟨h1, h2, h3, by rw [← hr.1, h4]⟩, ⟨g1, g2, g3, by rw [← hr.2, g4]⟩⟩
      · cases hr
    · cases hr
  · rintro ⟨a, b, rfl, ⟨h1, h2, h3, rfl⟩, ⟨g1, g2, g3, rfl⟩⟩
    unfold readResolution
    rw [(positive_iff (hsp b)).2 ⟨a, rfl, h1, h2, h3, rfl⟩]
    simp only
    rw [(positive_iff (r := []) (by simp)).2 ⟨b, by simp, g1, g2, g3, rfl⟩]

/-- The cell resolution is positive. -/
theorem C69_resolution_positive (text : List Char) (h v : Rat) (hr : readResolution text = some (h, v)) : 0 < h ∧ 0 < v := by
  obtain ⟨a, b, _, ⟨_, _, h3, rfl⟩, ⟨_, _, g3, rfl⟩⟩ := (C69_resolution text h v).1 hr
  exact ⟨Rat.natCast_pos.2 (Nat.pos_of_ne_zero h3), Rat.natCast_pos.2 (Nat.pos_of_ne_zero g3)⟩

example : readFont "1.25c".toList = some (.cell, ⟨none, 5 / 4⟩) ∧ readFont "+80% .5%".toList = some (.pct, ⟨some 80, 1 / 2⟩) ∧
    readFont "1c 2px".toList = none ∧ readFont "1e-05c".toList = none ∧ readFont "-1c".toList = none ∧ readFont "1.c".toList = none ∧
    readExtent "40px 12.5px".toList = some (.px, 40, 25 / 2) ∧ readOrigin "-1c +2c".toList = some (.cell, 1, 2) ∧
    readLine "125%".toList = some (some (.pct, 125)) ∧ readLine "+1c".toList = none ∧
    readResolution "032 15".toList = some (32, 15) ∧ readResolution "0 15".toList = none := by decide +kernel

end Verif.Size
