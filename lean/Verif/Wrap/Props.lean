import Verif.Wrap.Model

/-!
# Wrapping keeps every word and respects the limits (C48)
-/
namespace Verif.Wrap

/-! ### Specification -/

/-- The pieces of a line between single spaces. -/
def pieces : Text → List Text
  | [] => [[]]
  | c :: cs =>
    if c = ' ' then [] :: pieces cs
    else match pieces cs with
      | [] => [[c]]
      | p :: ps => (c :: p) :: ps

/-- The words of a line: its non-empty pieces. -/
def wordsOf (l : Text) : List Text := (pieces l).filter (· ≠ [])

/-- A word: not empty and without white space. -/
def Word (w : Text) : Prop := w ≠ [] ∧ ∀ c ∈ w, isBlank c = false

/-- No line of a sentence has room for the first word of the next. -/
def Filled : List Text → Prop
  | [] => True
  | [_] => True
  | a :: b :: l => (∀ w, (wordsOf b).head? = some w → 38 < a.length + 1 + w.length) ∧ Filled (b :: l)

/-! ### Words of lines -/

theorem pieces_word {w : Text} (hb : ∀ c ∈ w, isBlank c = false) : pieces w = [w] := by
  induction w with
  | nil => rfl
  | cons c cs ih =>
    have hc : c ≠ ' ' := by
      intro e
      have := hb c List.mem_cons_self
      rw [e] at this; exact absurd this (by decide)
    rw [pieces, if_neg hc, ih (fun x hx => hb x (List.mem_cons_of_mem _ hx))]

theorem wordsOf_word {w : Text} (h : Word w) : wordsOf w = [w] := by
  simp [wordsOf, pieces_word h.2, h.1]

theorem pieces_ne (l : Text) : pieces l ≠ [] := by
  cases l with
  | nil => simp [pieces]
  | cons c cs =>
    rw [pieces]
    split
    · simp
    · split <;> simp

theorem pieces_join (a b : Text) : pieces (a ++ ' ' :: b) = pieces a ++ pieces b := by
  induction a with
  | nil => simp [pieces]
  | cons c cs ih =>
    rw [List.cons_append, pieces, pieces]
    by_cases hc : c = ' '
    · rw [if_pos hc, if_pos hc, ih]; rfl
    · rw [if_neg hc, if_neg hc, ih]
      cases hp : pieces cs with
      | nil => exact absurd hp (pieces_ne cs)
      | cons p ps => rfl

theorem wordsOf_join (a b : Text) : wordsOf (a ++ ' ' :: b) = wordsOf a ++ wordsOf b := by
  simp [wordsOf, pieces_join]

theorem wordsOf_nil : wordsOf [] = [] := by simp [wordsOf, pieces]

/-- A line starts with no white space. -/
def Clean (l : Text) : Prop := ∀ c, l.head? = some c → isBlank c = false

theorem strip_keep {l : Text} (h1 : Clean l) (h2 : ∀ c, l.getLast? = some c → isBlank c = false) : strip l = l := by
  unfold strip
  have : l.dropWhile isBlank = l := by
    cases l with
    | nil => rfl
    | cons c cs => simp [h1 c rfl]
  rw [this]
  cases hr : l.reverse with
  | nil => rw [List.reverse_eq_nil_iff] at hr; simp [hr]
  | cons c cs =>
    have : l.getLast? = some c := by rw [← List.head?_reverse, hr]; rfl
    simp [h2 c this]
    have := congrArg List.reverse hr
    simpa using this.symm

theorem word_last {w : Text} (h : Word w) (l : Text) : ∀ c, (l ++ w).getLast? = some c → isBlank c = false := by
  intro c hc
  rw [List.getLast?_append] at hc
  cases hl : w.getLast? with
  | none => exact absurd (List.getLast?_eq_none_iff.mp hl) h.1
  | some d =>
    rw [hl] at hc
    simp only [Option.some_or, Option.some.injEq] at hc
    rw [← hc]
    exact h.2 d (List.mem_of_getLast? hl)

theorem longer_eq {cur w : Text} (hc : Clean cur) (hw : Word w) :
    strip (cur ++ ' ' :: w) = if cur = [] then w else cur ++ ' ' :: w := by
  by_cases h : cur = []
  · subst h
    rw [if_pos rfl, List.nil_append]
    have hs : strip (' ' :: w) = strip w := by
      unfold strip; rw [List.dropWhile_cons_of_pos (by decide)]
    rw [hs]
    apply strip_keep
    · intro c h; exact hw.2 c (List.mem_of_head? h)
    · have := word_last hw []; simpa using this
  · rw [if_neg h]
    apply strip_keep
    · intro c hc'
      cases cur with
      | nil => exact absurd rfl h
      | cons x xs => exact hc c (by simpa using hc')
    · have := word_last hw (cur ++ [' ']); simpa using this

theorem filled_snoc : ∀ (l : List Text) (b : Text), Filled l →
    (∀ a w, l.getLast? = some a → (wordsOf b).head? = some w → 38 < a.length + 1 + w.length) → Filled (l ++ [b])
  | [], _, _, _ => trivial
  | [a], b, _, h => ⟨fun w hw => h a w rfl hw, trivial⟩
  | a :: c :: l, b, hf, h => by
    refine ⟨hf.1, ?_⟩
    exact filled_snoc (c :: l) b hf.2 (fun x w hx hw => h x w (by rw [List.getLast?_cons_cons]; exact hx) hw)

/-! ### The invariant of the loop -/

structure Inv (orig : List Text) (base : List (List Text)) (s : State) : Prop where
  kept : ∃ out, s.out = base ++ out ∧
    (out.flatten ++ s.lines).flatMap wordsOf ++ wordsOf s.cur ++ s.words = orig ∧
    (∀ b ∈ out, b.length = 2) ∧
    (∀ l ∈ out.flatten ++ s.lines, l ≠ [] ∧ (l.length ≤ 38 ∨ Word l)) ∧
    Filled (out.flatten ++ s.lines) ∧
    (∀ a w, (out.flatten ++ s.lines).getLast? = some a → (wordsOf s.cur ++ s.words).head? = some w →
      38 < a.length + 1 + w.length)
  few : s.lines.length < 2
  words : ∀ w ∈ s.words, Word w
  clean : Clean s.cur
  short : s.cur.length ≤ 38
  busy : s.cur ≠ [] → wordsOf s.cur ≠ []

theorem Inv.flush {orig base} {s : State} {o : List (List Text)}
    (hout : s.out = base ++ o)
    (h1 : (o.flatten ++ s.lines).flatMap wordsOf ++ wordsOf s.cur ++ s.words = orig)
    (h2 : ∀ b ∈ o, b.length = 2)
    (h3 : ∀ l ∈ o.flatten ++ s.lines, l ≠ [] ∧ (l.length ≤ 38 ∨ Word l))
    (h4 : Filled (o.flatten ++ s.lines))
    (h5 : ∀ a w, (o.flatten ++ s.lines).getLast? = some a → (wordsOf s.cur ++ s.words).head? = some w →
      38 < a.length + 1 + w.length)
    (h6 : s.lines.length ≤ 2) (h7 : ∀ w ∈ s.words, Word w) (h8 : Clean s.cur) (h9 : s.cur.length ≤ 38)
    (h10 : s.cur ≠ [] → wordsOf s.cur ≠ []) :
    Inv orig base (Wrap.flush s) := by
  unfold Wrap.flush linesPerSubtitle
  split
  · rename_i h
    have e : (o ++ [s.lines]).flatten ++ [] = o.flatten ++ s.lines := by simp
    refine ⟨⟨o ++ [s.lines], by rw [hout, List.append_assoc], ?_, ?_, ?_, ?_, ?_⟩, by simp, h7, h8, h9, h10⟩
    · simp only [e]; exact h1
    · intro b hb
      rcases List.mem_append.mp hb with hb | hb
      · exact h2 b hb
      · rw [List.mem_singleton.mp hb]; omega
    · simp only [e]; exact h3
    · simp only [e]; exact h4
    · simp only [e]; exact h5
  · exact ⟨⟨o, hout, h1, h2, h3, h4, h5⟩, by omega, h7, h8, h9, h10⟩

theorem Inv.step {orig base} {s : State} (h : Inv orig base s) {w : Text} {ws : List Text} (hw : s.words = w :: ws) :
    Inv orig base (Wrap.step s w ws) := by
  obtain ⟨⟨o, hout, h1, h2, h3, h4, h5⟩, h6, h7, h8, h9, h10⟩ := h
  have hW : Word w := h7 w (by rw [hw]; simp)
  have hWs : ∀ x ∈ ws, Word x := fun x hx => h7 x (by rw [hw]; exact List.mem_cons_of_mem _ hx)
  have hlong := longer_eq h8 hW
  rw [hw] at h1 h5
  -- closing a line
  have closing : ∀ (t : State), t.out = s.out → t.lines = s.lines → t.cur ≠ [] →
      (t.cur.length ≤ 38 ∨ Word t.cur) → (wordsOf t.cur ++ t.words = wordsOf s.cur ++ w :: ws) →
      (∀ x ∈ t.words, Word x) → (∀ x, t.words.head? = some x → 38 < t.cur.length + 1 + x.length) →
      wordsOf t.cur ≠ [] →
      Inv orig base (Wrap.flush (close t)) := by
    intro t e1 e2 hne hlen e3 hwt hnext hnil
    have e : o.flatten ++ (close t).lines = (o.flatten ++ s.lines) ++ [t.cur] := by simp [close, e2]
    refine Inv.flush (o := o) (by simp [close, e1, hout]) ?_ h2 ?_ ?_ ?_ ?_ hwt ?_ ?_ ?_
    · rw [e, List.flatMap_append]
      simp only [close, List.flatMap_cons, List.flatMap_nil, List.append_nil, wordsOf_nil]
      rw [← h1, List.append_assoc, e3]; simp
    · rw [e]
      intro l hl
      rcases List.mem_append.mp hl with hl | hl
      · exact h3 l hl
      · rw [List.mem_singleton.mp hl]; exact ⟨hne, hlen⟩
    · rw [e]
      refine filled_snoc _ _ h4 ?_
      intro a x ha hx
      refine h5 a x ha ?_
      rw [← e3]
      cases hc : wordsOf t.cur with
      | nil => exact absurd hc hnil
      | cons y ys => rw [hc] at hx; simpa using hx
    · rw [e]
      intro a x ha hx
      rw [List.getLast?_append, List.getLast?_singleton] at ha
      simp only [Option.some_or, Option.some.injEq] at ha
      subst ha
      refine hnext x ?_
      simpa [close, wordsOf_nil] using hx
    · simp [close, e2]; omega
    · intro c hc; simp [close] at hc
    · simp [close]
    · simp [close]
  unfold Wrap.step
  simp only [charactersPerLine]
  by_cases hc : (strip (s.cur ++ ' ' :: w)).length > 38 ∧ s.cur ≠ []
  · rw [if_pos hc]
    refine closing { s with words := w :: ws } rfl rfl hc.2 (.inl h9) rfl
      (fun x hx => h7 x (by rw [hw]; exact hx)) ?_ (h10 hc.2)
    intro x hx
    simp only [List.head?_cons, Option.some.injEq] at hx
    subst hx
    have := hc.1
    rw [hlong, if_neg hc.2] at this
    simp at this; simp only; omega
  · rw [if_neg hc]
    have hlen : s.cur ≠ [] → (s.cur ++ ' ' :: w).length ≤ 38 := by
      intro hne
      have : ¬ (strip (s.cur ++ ' ' :: w)).length > 38 := fun h => hc ⟨h, hne⟩
      rw [hlong, if_neg hne] at this
      omega
    have hwords : wordsOf (strip (s.cur ++ ' ' :: w)) = wordsOf s.cur ++ [w] := by
      rw [hlong]
      by_cases hne : s.cur = []
      · rw [if_pos hne, hne, wordsOf_word hW]; rfl
      · rw [if_neg hne, wordsOf_join, wordsOf_word hW]
    have hcl : Clean (strip (s.cur ++ ' ' :: w)) := by
      rw [hlong]
      by_cases hne : s.cur = []
      · rw [if_pos hne]; intro c h; exact hW.2 c (List.mem_of_head? h)
      · rw [if_neg hne]
        intro c hc'
        cases hcur : s.cur with
        | nil => exact absurd hcur hne
        | cons y ys =>
          rw [hcur] at hc'
          exact h8 c (by rw [hcur]; simpa using hc')
    by_cases hbig : w.length ≥ 38
    · rw [if_pos hbig]
      have hempty : s.cur = [] := by
        cases hcur : s.cur with
        | nil => rfl
        | cons y ys =>
          exfalso
          have := hlen (by simp [hcur])
          rw [hcur] at this
          simp at this; omega
      have hl : strip (s.cur ++ ' ' :: w) = w := by rw [hlong, if_pos hempty]
      refine closing { s with words := ws, cur := strip (s.cur ++ ' ' :: w) } rfl rfl ?_ ?_ ?_ hWs ?_ ?_
      · simp only [hl]; exact hW.1
      · simp only [hl]; exact .inr hW
      · simp only [hwords]; simp
      · intro x hx
        simp only [hl] at hx ⊢
        have hx' : Word x := hWs x (List.mem_of_head? hx)
        have : 0 < x.length := List.length_pos_iff.mpr hx'.1
        omega
      · simp [hwords]
    · rw [if_neg hbig]
      refine Inv.flush (o := o) hout ?_ h2 h3 h4 ?_ (by simp only; omega) hWs hcl ?_ ?_
      · simp only [hwords]; rw [← h1]; simp
      · simp only [hwords]
        intro a x ha hx
        exact h5 a x ha (by simpa using hx)
      · simp only
        rw [hlong]
        by_cases hne : s.cur = []
        · rw [if_pos hne]; omega
        · rw [if_neg hne]; exact hlen hne
      · intro _; simp [hwords]

/-- Work left: two rounds for each word, one for an open line. -/
def left (s : State) : Nat := 2 * s.words.length + (if s.cur = [] then 0 else 1)

theorem step_left {s : State} {w ws} (hw : s.words = w :: ws) : left (Wrap.step s w ws) < left s := by
  have hf : ∀ t : State, left (Wrap.flush t) = left t := by
    intro t; unfold Wrap.flush left; split <;> rfl
  unfold Wrap.step
  simp only
  split
  · rename_i hc
    rw [hf]
    simp [left, close, hw, hc.2]
  · split
    · rw [hf]; simp [left, close, hw]; omega
    · rw [hf]; simp only [left, hw, List.length_cons]
      split <;> split <;> omega

theorem loop_inv {orig base} : ∀ (n : Nat) (s : State), Inv orig base s → left s ≤ n →
    ∃ s', loop n s = some s' ∧ Inv orig base s' ∧ s'.words = []
  | 0, s, h, hn => by
    have : s.words = [] := by
      cases hw : s.words with
      | nil => rfl
      | cons w ws => exfalso; simp [left, hw] at hn
    exact ⟨s, by simp [loop, this], h, this⟩
  | n + 1, s, h, hn => by
    cases hw : s.words with
    | nil => exact ⟨s, by simp [loop, hw], h, hw⟩
    | cons w ws =>
      obtain ⟨s', h1, h2⟩ := loop_inv n (Wrap.step s w ws) (h.step hw) (by have := step_left hw; omega)
      exact ⟨s', by simp [loop, hw, h1], h2⟩

/-- One sentence, after whatever has been put out before. -/
theorem sentence (ws : List Text) (hws : ∀ w ∈ ws, Word w) (base : List (List Text)) (n : Nat) (hn : 2 * ws.length ≤ n) :
    ∃ s out, loop n ⟨ws, [], [], base⟩ = some s ∧ finish s = base ++ out ∧
      out.flatten.flatMap wordsOf = ws ∧
      (∀ b ∈ out, b ≠ [] ∧ b.length ≤ 2 ∧ ∀ l ∈ b, l ≠ [] ∧ (l.length ≤ 38 ∨ Word l)) ∧
      (∀ b ∈ out.dropLast, b.length = 2) ∧ Filled out.flatten := by
  have h0 : Inv ws base ⟨ws, [], [], base⟩ := by
    refine ⟨⟨[], by simp, by simp [wordsOf_nil], by simp, by simp, trivial, by simp⟩, by simp, hws, ?_, by simp, by simp⟩
    intro c hc; simp at hc
  obtain ⟨s, h1, h2, h3⟩ := loop_inv n _ h0 (by simpa [left] using hn)
  obtain ⟨⟨o, hout, k1, k2, k3, k4, k5⟩, h6, h7, h8, h9, h10⟩ := h2
  rw [h3, List.append_nil] at k1 k5
  have hin : ∀ b ∈ o, b ≠ [] ∧ b.length ≤ 2 ∧ ∀ l ∈ b, l ≠ [] ∧ (l.length ≤ 38 ∨ Word l) := by
    intro b hb
    have := k2 b hb
    refine ⟨by intro e; rw [e] at this; simp at this, by omega, ?_⟩
    intro l hl
    exact k3 l (List.mem_append_left _ (List.mem_flatten.mpr ⟨b, hb, hl⟩))
  -- the lines left over
  have hrest : ∃ rest : List Text, (if s.cur ≠ [] then s.lines ++ [s.cur] else s.lines) = rest ∧ rest.length ≤ 2 ∧
      (o.flatten ++ rest).flatMap wordsOf = ws ∧ (∀ l ∈ rest, l ≠ [] ∧ (l.length ≤ 38 ∨ Word l)) ∧
      Filled (o.flatten ++ rest) := by
    by_cases hc : s.cur = []
    · refine ⟨s.lines, by simp [hc], by omega, ?_, fun l hl => k3 l (List.mem_append_right _ hl), k4⟩
      rw [hc] at k1; simpa [wordsOf_nil] using k1
    · refine ⟨s.lines ++ [s.cur], by simp [hc], by simp; omega, ?_, ?_, ?_⟩
      · rw [← k1]; simp
      · intro l hl
        rcases List.mem_append.mp hl with hl | hl
        · exact k3 l (List.mem_append_right _ hl)
        · rw [List.mem_singleton.mp hl]; exact ⟨hc, .inl h9⟩
      · rw [← List.append_assoc]
        exact filled_snoc _ _ k4 k5
  obtain ⟨rest, r1, r2, r3, r4, r5⟩ := hrest
  by_cases hr : rest = []
  · refine ⟨s, o, h1, ?_, ?_, hin, ?_, ?_⟩
    · unfold finish; simp only [r1, hr, hout]; simp
    · rw [hr] at r3; simpa using r3
    · intro b hb; exact k2 b (List.dropLast_subset _ hb)
    · rw [hr] at r5; simpa using r5
  · refine ⟨s, o ++ [rest], h1, ?_, ?_, ?_, ?_, ?_⟩
    · unfold finish; simp only [r1, hout]; simp [hr]
    · rw [← r3]; simp
    · intro b hb
      rcases List.mem_append.mp hb with hb | hb
      · exact hin b hb
      · rw [List.mem_singleton.mp hb]; exact ⟨hr, r2, r4⟩
    · rw [List.dropLast_concat]; exact k2
    · simpa using r5

/-! ### C48 -/

/-- **C48.** Wrapping any text ends, after at most two rounds of its loop for each word of a sentence.
What comes out has all the words of the text, each once and in order; every subtitle has one or two
lines, and no line is longer than 38 characters unless it is a single word. -/
theorem C48_wrap (text : List (List Text)) (hw : ∀ s ∈ text, ∀ w ∈ s, Word w) (n : Nat)
    (hn : ∀ s ∈ text, 2 * s.length ≤ n) :
    ∃ out, tokenize n [] text = some out ∧
      out.flatten.flatMap wordsOf = text.flatten ∧
      (∀ b ∈ out, 1 ≤ b.length ∧ b.length ≤ 2) ∧
      (∀ b ∈ out, ∀ l ∈ b, l.length ≤ 38 ∨ (wordsOf l).length = 1) := by
  have key : ∀ (text : List (List Text)), (∀ s ∈ text, ∀ w ∈ s, Word w) → (∀ s ∈ text, 2 * s.length ≤ n) →
      ∀ base, ∃ out, tokenize n base text = some (base ++ out) ∧
        out.flatten.flatMap wordsOf = text.flatten ∧
        (∀ b ∈ out, 1 ≤ b.length ∧ b.length ≤ 2) ∧
        (∀ b ∈ out, ∀ l ∈ b, l.length ≤ 38 ∨ (wordsOf l).length = 1) := by
    intro text
    induction text with
    | nil => intro _ _ base; exact ⟨[], by simp [tokenize], rfl, by simp, by simp⟩
    | cons ws rest ih =>
      intro h1 h2 base
      obtain ⟨s, o, s1, s2, s3, s4, _, _⟩ := sentence ws (h1 ws List.mem_cons_self) base n (h2 ws List.mem_cons_self)
      obtain ⟨out, o1, o2, o3, o4⟩ := ih (fun x hx => h1 x (List.mem_cons_of_mem _ hx))
        (fun x hx => h2 x (List.mem_cons_of_mem _ hx)) (base ++ o)
      refine ⟨o ++ out, ?_, ?_, ?_, ?_⟩
      · simp only [tokenize, s1, s2, o1, List.append_assoc]
      · rw [List.flatten_append, List.flatMap_append, s3, o2]; rfl
      · intro b hb
        rcases List.mem_append.mp hb with hb | hb
        · obtain ⟨a1, a2, _⟩ := s4 b hb
          exact ⟨List.length_pos_iff.mpr a1, a2⟩
        · exact o3 b hb
      · intro b hb l hl
        rcases List.mem_append.mp hb with hb | hb
        · rcases ((s4 b hb).2.2 l hl).2 with h | h
          · exact .inl h
          · right; rw [wordsOf_word h]; rfl
        · exact o4 b hb l hl
  obtain ⟨out, h1, h2⟩ := key text hw hn []
  exact ⟨out, h1, h2⟩

/-- A sentence is not wrapped earlier than needed: all its subtitles but the last have two lines, and
no line had room for the first word of the next one. -/
theorem C48_filled (ws : List Text) (hws : ∀ w ∈ ws, Word w) (n : Nat) (hn : 2 * ws.length ≤ n) :
    ∃ out, tokenize n [] [ws] = some out ∧ (∀ b ∈ out.dropLast, b.length = 2) ∧ Filled out.flatten := by
  obtain ⟨s, o, s1, s2, _, _, s5, s6⟩ := sentence ws hws [] n hn
  exact ⟨o, by simp only [tokenize, s1, s2, List.nil_append], s5, s6⟩

def exText : List (List Text) :=
  [["Now".toList, "is".toList, "the".toList, "winter".toList, "of".toList, "our".toList, "discontent".toList,
    "made".toList, "glorious".toList, "summer".toList, "by".toList, "this".toList, "sun".toList, "of".toList,
    "York,".toList, "and".toList, "all".toList, "the".toList, "clouds".toList],
   ["Llanfairpwllgwyngyllgogerychwyrndrobwllllantysiliogogogoch".toList, "is".toList, "long.".toList]]

instance (w : Text) : Decidable (Word w) := by unfold Word; infer_instance

example : (∀ s ∈ exText, ∀ w ∈ s, Word w) ∧ (∀ s ∈ exText, 2 * s.length ≤ 38) ∧ tokenize 38 [] exText = some
    [["Now is the winter of our discontent".toList, "made glorious summer by this sun of".toList],
     ["York, and all the clouds".toList],
     ["Llanfairpwllgwyngyllgogerychwyrndrobwllllantysiliogogogoch".toList, "is long.".toList]] := by
  decide +kernel

end Verif.Wrap
