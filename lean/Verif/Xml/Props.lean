import Verif.Xml.Lemmas

/-!
# What survives being written and read

C68: a document that is sent as text and read again.
-/
namespace Verif.Xml

/-! ### Specifications -/

/-- What is met in a document from its beginning to its end. -/
inductive Ev where
  | opened (tag : Text) (attrs : List (Text × Text))
  | char (c : Char)
  | closed (tag : Text)
deriving DecidableEq

mutual
/-- The tags with their attributes, and the characters that are not white space, in order. -/
def seen : X → List Ev
  | .text d => (d.filter (fun c => !(blank c))).map .char
  | .elem t as ks => .opened t as :: seens ks ++ [.closed t]
def seens : List X → List Ev
  | [] => []
  | k :: ks => seen k ++ seens ks
end

/-- The same with whole texts, those of white space only left out. -/
inductive Ev2 where
  | opened (tag : Text) (attrs : List (Text × Text))
  | text (d : Text)
  | closed (tag : Text)
deriving DecidableEq

mutual
def texts : X → List Ev2
  | .text d => if d.all blank = true then [] else [.text d]
  | .elem t as ks => .opened t as :: textss ks ++ [.closed t]
def textss : List X → List Ev2
  | [] => []
  | k :: ks => texts k ++ textss ks
end

mutual
/-- No element has text and other children (white space aside). -/
def apart : X → Bool
  | .text _ => true
  | .elem _ _ ks => ((alone ks).isSome || ks.all (fun k => match k with | .text d => d.all blank | .elem _ _ _ => true)) && aparts ks
def aparts : List X → Bool
  | [] => true
  | k :: ks => apart k && aparts ks
end

def X.isElem : X → Bool
  | .elem _ _ _ => true
  | .text _ => false

mutual
/-- Elements that can contain text contain one text or nothing; the others contain elements. -/
def plain (mixed : Text → Bool) : X → Bool
  | .text d => !d.isEmpty
  | .elem t _ ks => (if mixed t = true then ks.isEmpty || (alone ks).isSome else ks.all X.isElem) && plains mixed ks
def plains (mixed : Text → Bool) : List X → Bool
  | [] => true
  | k :: ks => plain mixed k && plains mixed ks
end

mutual
/-- Some element that can contain text contains an element, such as a `span` or `br` in a `p`. -/
def hasInline (mixed : Text → Bool) : X → Bool
  | .text _ => false
  | .elem t _ ks => (mixed t && ks.any X.isElem) || hasInlines mixed ks
def hasInlines (mixed : Text → Bool) : List X → Bool
  | [] => false
  | k :: ks => hasInline mixed k || hasInlines mixed ks
end

/-- The characters of the texts among these nodes. -/
def textLen : List X → Nat
  | [] => 0
  | .text d :: ks => d.length + textLen ks
  | .elem _ _ _ :: ks => textLen ks

mutual
/-- The characters in all elements that can contain text. -/
def inMixed (mixed : Text → Bool) : X → Nat
  | .text _ => 0
  | .elem t _ ks => (if mixed t = true then textLen ks else 0) + inMixeds mixed ks
def inMixeds (mixed : Text → Bool) : List X → Nat
  | [] => 0
  | k :: ks => inMixed mixed k + inMixeds mixed ks
end

/-- A document is written and read by another node. -/
def trip (mixed : Text → Bool) (x : X) : Option X := (readDoc (writeDoc x)).map (bindRead mixed)

/-- It passes `n` nodes. -/
def trips (mixed : Text → Bool) : Nat → X → Option X
  | 0, x => some x
  | n + 1, x => (trip mixed x).bind (trips mixed n)

/-! ### Tags and visible characters -/

def ink (a : Text) : List Ev := (a.filter (fun c => !(blank c))).map .char

theorem ink_append (a b : Text) : ink (a ++ b) = ink a ++ ink b := by simp [ink]

theorem ink_blank {a : Text} (h : ∀ c ∈ a, c = ' ' ∨ c = '\n') : ink a = [] := by
  unfold ink
  rw [List.map_eq_nil_iff, List.filter_eq_nil_iff]
  intro c hc
  rcases h c hc with rfl | rfl <;> decide

theorem seens_append (a b : List X) : seens (a ++ b) = seens a ++ seens b := by
  induction a with
  | nil => rfl
  | cons x a ih => simp [seens, ih]

theorem seens_glue (l : List X) (a : Text) : seens (glue l a).reverse = seens l.reverse ++ ink a := by
  unfold glue
  by_cases ha : a = []
  · simp [ha, ink]
  · rw [if_neg ha]
    cases l with
    | nil => simp [seens, seen, ink]
    | cons x l => cases x <;> simp [seens, seens_append, seen, ink]

theorem indent_blank {ind : Text} (hi : ∀ c ∈ ind, c = ' ' ∨ c = '\n') : ∀ c ∈ ind ++ [' ', ' '], c = ' ' ∨ c = '\n' := by
  intro c hc
  rcases List.mem_append.mp hc with hc | hc
  · exact hi c hc
  · simp at hc; exact .inl hc

theorem alone_some {ks : List X} {d : Text} (h : alone ks = some d) : ks = [.text d] := by
  match ks, h with
  | [.text d'], h => simp only [alone, Option.some.injEq] at h; rw [h]

mutual
theorem seen_pretty (ind : Text) (hi : ∀ c ∈ ind, c = ' ' ∨ c = '\n') : ∀ x : X, seen (pretty ind x) = seen x
  | .text d => by rw [pretty]
  | .elem t as ks => by
    rw [pretty, seen, seen]
    by_cases hk : ks.isEmpty = true
    · rw [if_pos hk]
      rw [List.isEmpty_iff] at hk
      rw [hk]
    · rw [if_neg hk]
      cases ha : alone ks with
      | some d => rw [alone_some ha]; simp [seens_glue, seens, seen, ink]
      | none =>
        simp only
        rw [seens_glue, seens_prettyOnto _ (indent_blank hi), seens_glue, ink_blank hi, ink_blank (a := ['\n']) (by simp)]
        simp [seens]
theorem seens_prettyOnto (ind : Text) (hi : ∀ c ∈ ind, c = ' ' ∨ c = '\n') : ∀ (ks l : List X),
    seens (prettyOnto ind l ks).reverse = seens l.reverse ++ seens ks
  | [], l => by simp [prettyOnto, seens]
  | .text d :: ks, l => by
    rw [prettyOnto, seens_prettyOnto ind hi ks, seens_glue, ink_append, ink_append, ink_blank hi, ink_blank (a := ['\n']) (by simp)]
    simp [seens, seen, ink]
  | .elem t as k :: ks, l => by
    rw [prettyOnto, seens_prettyOnto ind hi ks, seens_glue, List.reverse_cons, seens_append, seens_glue, ink_blank hi,
      ink_blank (a := ['\n']) (by simp)]
    have := seen_pretty ind hi (.elem t as k)
    simp [seens, this]
end

/-- **C68 (part).** Any document that is written as text can be read again, and has the same tags with the same
attributes, and the same characters apart from white space, in the same order: in particular nothing is lost
or misread because of characters that have a meaning in XML.  White space is another matter
(`C68_false_mixed`). -/
theorem C68_visible_partial (t : Text) (as : List (Text × Text)) (ks : List X) (h : good (.elem t as ks) = true) :
    ∃ y, readDoc (writeDoc (.elem t as ks)) = some y ∧ seen y = seen (.elem t as ks) :=
  ⟨_, readDoc_writeDoc t as ks h, seen_pretty [] (by simp) _⟩

/-! ### Texts that are alone -/

theorem textss_append (a b : List X) : textss (a ++ b) = textss a ++ textss b := by
  induction a with
  | nil => rfl
  | cons x a ih => simp [textss, ih]

/-- The last thing read is not a text that is more than white space. -/
def Clear (l : List X) : Prop := ∀ d l', l = .text d :: l' → d.all blank = true

theorem all_blank {a : Text} (h : ∀ c ∈ a, c = ' ' ∨ c = '\n') : a.all blank = true := by
  rw [List.all_eq_true]
  intro c hc
  rcases h c hc with rfl | rfl <;> decide

theorem textss_glue {l : List X} (hl : Clear l) {a : Text} (ha : a.all blank = true) :
    textss (glue l a).reverse = textss l.reverse ∧ Clear (glue l a) := by
  unfold glue
  by_cases h0 : a = []
  · rw [if_pos h0]; exact ⟨rfl, hl⟩
  · rw [if_neg h0]
    cases l with
    | nil =>
      refine ⟨by simp [textss, texts, ha], ?_⟩
      intro d l' he
      simp only [List.cons.injEq, X.text.injEq] at he
      rw [← he.1]; exact ha
    | cons x l =>
      cases x with
      | text b =>
        have hb := hl b l rfl
        refine ⟨by simp only [List.reverse_cons, textss_append, textss, texts, List.all_append, ha, hb]; simp, ?_⟩
        intro d l' he
        simp only [List.cons.injEq, X.text.injEq] at he
        rw [← he.1, List.all_append, ha, hb]; rfl
      | elem t as k =>
        refine ⟨by simp [textss_append, textss, texts, ha], ?_⟩
        intro d l' he
        simp only [List.cons.injEq, X.text.injEq] at he
        rw [← he.1]; exact ha

mutual
theorem texts_pretty (ind : Text) (hi : ∀ c ∈ ind, c = ' ' ∨ c = '\n') : ∀ x : X, apart x = true → texts (pretty ind x) = texts x
  | .text d, _ => by rw [pretty]
  | .elem t as ks, h => by
    rw [apart, Bool.and_eq_true] at h
    rw [pretty, texts, texts]
    by_cases hk : ks.isEmpty = true
    · rw [if_pos hk]
      rw [List.isEmpty_iff] at hk
      rw [hk]
    · rw [if_neg hk]
      cases ha : alone ks with
      | some d =>
        rw [alone_some ha]
        simp only
        by_cases hd : d = []
        · simp [hd, glue, textss, texts]
        · simp [glue, hd, textss, texts]
      | none =>
        rw [ha] at h
        simp only [Option.isSome_none, Bool.false_or] at h
        simp only
        have hn : Clear [] := by intro d l' he; simp at he
        have h1 := textss_glue hn (a := ['\n']) (by decide)
        have h2 := textss_prettyOnto _ (indent_blank hi) ks (glue [] ['\n']) h1.2 h.2 h.1
        have h3 := textss_glue h2.2 (all_blank hi)
        rw [h3.1, h2.1, h1.1]
        simp [textss]
theorem textss_prettyOnto (ind : Text) (hi : ∀ c ∈ ind, c = ' ' ∨ c = '\n') : ∀ (ks l : List X), Clear l → aparts ks = true →
    ks.all (fun k => match k with | .text d => d.all blank | .elem _ _ _ => true) = true →
    textss (prettyOnto ind l ks).reverse = textss l.reverse ++ textss ks ∧ Clear (prettyOnto ind l ks)
  | [], l, hl, _, _ => ⟨by simp [prettyOnto, textss], by rw [prettyOnto]; exact hl⟩
  | .text d :: ks, l, hl, h, h' => by
    rw [aparts, Bool.and_eq_true] at h
    rw [List.all_cons, Bool.and_eq_true] at h'
    have hd : d.all blank = true := h'.1
    have hb : (ind ++ d ++ ['\n']).all blank = true := by
      rw [List.all_append, List.all_append, all_blank hi, hd]; rfl
    have h1 := textss_glue hl hb
    have h2 := textss_prettyOnto ind hi ks _ h1.2 h.2 h'.2
    rw [prettyOnto, h2.1, h1.1]
    exact ⟨by simp [textss, texts, hd], h2.2⟩
  | .elem t as k :: ks, l, hl, h, h' => by
    rw [aparts, Bool.and_eq_true] at h
    rw [List.all_cons, Bool.and_eq_true] at h'
    have h1 := textss_glue hl (all_blank hi)
    have hc : Clear (pretty ind (.elem t as k) :: glue l ind) := by
      intro d l' he
      rw [pretty] at he
      simp at he
    have h2 := textss_glue hc (a := ['\n']) (by decide)
    have h3 := textss_prettyOnto ind hi ks _ h2.2 h.2 h'.2
    rw [prettyOnto, h3.1, h2.1, List.reverse_cons, textss_append, h1.1]
    have h4 := texts_pretty ind hi (.elem t as k) h.1
    exact ⟨by simp [textss, h4], h3.2⟩
end

/-- **C68 (part).** In a document in which text is never beside other content, a `p` having either text or spans,
every text is read exactly as it was written, white space included; only texts of nothing but white space
come and go between other content. -/
theorem C68_texts_partial (t : Text) (as : List (Text × Text)) (ks : List X) (h : good (.elem t as ks) = true)
    (ha : apart (.elem t as ks) = true) :
    ∃ y, readDoc (writeDoc (.elem t as ks)) = some y ∧ texts y = texts (.elem t as ks) :=
  ⟨_, readDoc_writeDoc t as ks h, texts_pretty [] (by simp) _ ha⟩

/-! ### Documents without inline content -/

theorem dropBlank_append (a b : List X) : dropBlank (a ++ b) = dropBlank a ++ dropBlank b := by simp [dropBlank]

theorem bindKids_append (m) (a b : List X) : bindKids m (a ++ b) = bindKids m a ++ bindKids m b := by
  induction a with
  | nil => rfl
  | cons x a ih => simp [bindKids, ih]

theorem bind_glue_blank (m) {l : List X} (hl : Clear l) {a : Text} (ha : a.all blank = true) :
    dropBlank (bindKids m (glue l a).reverse) = dropBlank (bindKids m l.reverse) ∧ Clear (glue l a) := by
  refine ⟨?_, (textss_glue hl ha).2⟩
  unfold glue
  by_cases h0 : a = []
  · rw [if_pos h0]
  · rw [if_neg h0]
    cases l with
    | nil => simp [bindKids, bindRead, dropBlank, X.isBlank, ha]
    | cons x l =>
      cases x with
      | text b =>
        have hb := hl b l rfl
        simp [bindKids_append, dropBlank_append, bindKids, bindRead, dropBlank, X.isBlank, ha, hb]
      | elem t as k => simp [bindKids_append, dropBlank_append, bindKids, bindRead, dropBlank, X.isBlank, ha]

mutual
theorem bind_pretty (m : Text → Bool) (ind : Text) (hi : ∀ c ∈ ind, c = ' ' ∨ c = '\n') : ∀ x : X, plain m x = true →
    bindRead m (pretty ind x) = x
  | .text d, _ => by rw [pretty, bindRead]
  | .elem t as ks, h => by
    rw [plain, Bool.and_eq_true] at h
    rw [pretty, bindRead]
    congr 1
    by_cases hm : m t = true
    · rw [if_pos hm]
      rw [if_pos hm] at h
      by_cases hk : ks.isEmpty = true
      · rw [if_pos hk]
        rw [List.isEmpty_iff] at hk
        rw [hk]; rfl
      · rw [if_neg hk]
        cases ha : alone ks with
        | none =>
          rw [ha] at h
          simp [hk] at h
        | some d =>
          rw [alone_some ha] at h ⊢
          have hd : ¬ d = [] := by
            have := h.2
            simp only [plains, plain, Bool.and_true, Bool.not_eq_true'] at this
            intro hd
            simp [hd] at this
          simp [glue, hd, bindKids, bindRead]
    · rw [if_neg hm]
      rw [if_neg hm] at h
      by_cases hk : ks.isEmpty = true
      · rw [if_pos hk]
        rw [List.isEmpty_iff] at hk
        rw [hk]; rfl
      · rw [if_neg hk]
        cases ha : alone ks with
        | some d =>
          rw [alone_some ha] at h
          simp [X.isElem] at h
        | none =>
          simp only
          have hn : Clear [] := by intro d l' he; simp at he
          have h1 := bind_glue_blank m hn (a := ['\n']) (by decide)
          have h2 := bind_prettyOnto m _ (indent_blank hi) ks (glue [] ['\n']) h1.2 h.2 h.1
          have h3 := bind_glue_blank m h2.2 (all_blank hi)
          rw [h3.1, h2.1, h1.1]
          simp [bindKids, dropBlank]
theorem bind_prettyOnto (m : Text → Bool) (ind : Text) (hi : ∀ c ∈ ind, c = ' ' ∨ c = '\n') : ∀ (ks l : List X), Clear l →
    plains m ks = true → ks.all X.isElem = true →
    dropBlank (bindKids m (prettyOnto ind l ks).reverse) = dropBlank (bindKids m l.reverse) ++ ks ∧ Clear (prettyOnto ind l ks)
  | [], l, hl, _, _ => ⟨by simp [prettyOnto], by rw [prettyOnto]; exact hl⟩
  | .text d :: ks, l, hl, h, h' => by simp [X.isElem] at h'
  | .elem t as k :: ks, l, hl, h, h' => by
    rw [plains, Bool.and_eq_true] at h
    rw [List.all_cons, Bool.and_eq_true] at h'
    have h1 := bind_glue_blank m hl (all_blank hi)
    have hc : Clear (pretty ind (.elem t as k) :: glue l ind) := by
      intro d l' he
      rw [pretty] at he
      simp at he
    have h2 := bind_glue_blank m hc (a := ['\n']) (by decide)
    have h3 := bind_prettyOnto m ind hi ks _ h2.2 h.2 h'.2
    have h4 := bind_pretty m ind hi (.elem t as k) h.1
    refine ⟨?_, by rw [prettyOnto]; exact h3.2⟩
    rw [prettyOnto, h3.1, h2.1, List.reverse_cons, bindKids_append, dropBlank_append, h1.1]
    have h5 : dropBlank (bindKids m [pretty ind (.elem t as k)]) = [.elem t as k] := by
      rw [bindKids, bindKids, h4]; simp [dropBlank, X.isBlank]
    rw [h5]
    simp
end

/-- **C68 (part).** A document whose text elements have text only, without spans and line breaks, passes any number
of nodes unchanged. -/
theorem C68_kept_exactly_partial (mixed : Text → Bool) (t : Text) (as : List (Text × Text)) (ks : List X)
    (h : good (.elem t as ks) = true) (hp : plain mixed (.elem t as ks) = true) (n : Nat) :
    trips mixed n (.elem t as ks) = some (.elem t as ks) := by
  induction n with
  | zero => rfl
  | succ n ih =>
    rw [trips, trip, readDoc_writeDoc t as ks h, Option.map_some, bind_pretty mixed [] (by simp) _ hp, Option.bind_some, ih]

/-! ### Inline content -/

theorem textLen_append (a b : List X) : textLen (a ++ b) = textLen a + textLen b := by
  induction a with
  | nil => simp [textLen]
  | cons x a ih => cases x <;> simp [textLen, ih]; omega

theorem textLen_reverse (a : List X) : textLen a.reverse = textLen a := by
  induction a with
  | nil => rfl
  | cons x a ih => cases x <;> simp [textLen_append, textLen, ih]; omega

theorem textLen_glue (l : List X) (a : Text) : textLen (glue l a) = textLen l + a.length := by
  unfold glue
  by_cases ha : a = []
  · simp [ha]
  · rw [if_neg ha]
    cases l with
    | nil => simp [textLen]
    | cons x l => cases x <;> simp [textLen] <;> omega

theorem inMixeds_append (m) (a b : List X) : inMixeds m (a ++ b) = inMixeds m a + inMixeds m b := by
  induction a with
  | nil => simp [inMixeds]
  | cons x a ih => simp [inMixeds, ih]; omega

theorem inMixeds_reverse (m) (a : List X) : inMixeds m a.reverse = inMixeds m a := by
  induction a with
  | nil => rfl
  | cons x a ih => simp [inMixeds_append, inMixeds, ih]; omega

theorem inMixeds_glue (m) (l : List X) (a : Text) : inMixeds m (glue l a) = inMixeds m l := by
  unfold glue
  by_cases ha : a = []
  · simp [ha]
  · rw [if_neg ha]
    cases l with
    | nil => simp [inMixeds, inMixed]
    | cons x l => cases x <;> simp [inMixeds, inMixed]

theorem textLen_prettyOnto (ind : Text) : ∀ (ks l : List X),
    textLen (prettyOnto ind l ks) = textLen l + textLen ks + (ind.length + 1) * ks.length
  | [], l => by simp [prettyOnto, textLen]
  | .text d :: ks, l => by
    rw [prettyOnto, textLen_prettyOnto ind ks, textLen_glue]
    simp only [textLen, List.length_append, List.length_cons, List.length_nil, Nat.mul_add]
    omega
  | .elem t as k :: ks, l => by
    rw [prettyOnto, textLen_prettyOnto ind ks, textLen_glue, pretty, textLen, textLen_glue]
    simp only [textLen, List.length_cons, List.length_nil, Nat.mul_add]
    omega

/-- What a trip adds at least, if there is inline content. -/
def extra (b : Bool) : Nat := if b = true then 4 else 0

theorem extra_or (a b : Bool) : extra (a || b) ≤ extra a + extra b := by cases a <;> cases b <;> decide

mutual
theorem inMixed_pretty (m : Text → Bool) (ind : Text) : ∀ x : X, inMixed m x + extra (hasInline m x) ≤ inMixed m (pretty ind x)
  | .text d => by rw [pretty]; simp [inMixed, hasInline, extra]
  | .elem t as ks => by
    rw [pretty, inMixed, inMixed, hasInline]
    by_cases hk : ks.isEmpty = true
    · rw [if_pos hk]
      rw [List.isEmpty_iff] at hk
      rw [hk]
      simp [inMixeds, hasInlines, extra]
    · rw [if_neg hk]
      cases ha : alone ks with
      | some d =>
        rw [alone_some ha]
        simp only
        rw [inMixeds_reverse, inMixeds_glue, textLen_reverse, textLen_glue]
        simp [inMixeds, inMixed, hasInlines, hasInline, extra, X.isElem, textLen]
      | none =>
        simp only
        have h1 := inMixeds_prettyOnto m (ind ++ [' ', ' ']) ks (glue [] ['\n'])
        rw [inMixeds_glue] at h1
        rw [inMixeds_reverse, inMixeds_glue, textLen_reverse, textLen_glue, textLen_prettyOnto, textLen_glue]
        have h2 := extra_or (m t && ks.any X.isElem) (hasInlines m ks)
        have h3 : 1 ≤ ks.length := by
          cases ks with
          | nil => simp at hk
          | cons k ks => simp
        have h4 : (ind ++ [' ', ' ']).length + 1 ≤ ((ind ++ [' ', ' ']).length + 1) * ks.length := Nat.le_mul_of_pos_right _ h3
        simp only [List.length_append, List.length_cons, List.length_nil, textLen, inMixeds] at h4 h1 ⊢
        by_cases hm : m t = true
        · rw [if_pos hm, if_pos hm]
          have h5 : extra (m t && ks.any X.isElem) ≤ 4 := by unfold extra; split <;> omega
          omega
        · rw [if_neg hm, if_neg hm]
          have h5 : extra (m t && ks.any X.isElem) = 0 := by simp [extra, hm]
          omega
theorem inMixeds_prettyOnto (m : Text → Bool) (ind : Text) : ∀ (ks l : List X),
    inMixeds m l + inMixeds m ks + extra (hasInlines m ks) ≤ inMixeds m (prettyOnto ind l ks)
  | [], l => by simp [prettyOnto, inMixeds, hasInlines, extra]
  | .text d :: ks, l => by
    have h := inMixeds_prettyOnto m ind ks (glue l (ind ++ d ++ ['\n']))
    rw [inMixeds_glue] at h
    rw [prettyOnto]
    simp only [inMixeds, inMixed, hasInlines, hasInline, Bool.false_or]
    omega
  | .elem t as k :: ks, l => by
    have h := inMixeds_prettyOnto m ind ks (glue (pretty ind (.elem t as k) :: glue l ind) ['\n'])
    rw [inMixeds_glue, inMixeds, inMixeds_glue] at h
    have h1 := inMixed_pretty m ind (.elem t as k)
    have h2 := extra_or (hasInline m (.elem t as k)) (hasInlines m ks)
    rw [prettyOnto, inMixeds, hasInlines]
    omega
end

theorem any_glue (l : List X) (a : Text) : (glue l a).any X.isElem = l.any X.isElem := by
  unfold glue
  by_cases ha : a = []
  · simp [ha]
  · rw [if_neg ha]
    cases l with
    | nil => simp [X.isElem]
    | cons x l => cases x <;> simp [X.isElem]

theorem any_prettyOnto (ind : Text) : ∀ (ks l : List X), (prettyOnto ind l ks).any X.isElem = (l.any X.isElem || ks.any X.isElem)
  | [], l => by simp [prettyOnto]
  | .text d :: ks, l => by rw [prettyOnto, any_prettyOnto ind ks, any_glue]; simp [X.isElem]
  | .elem t as k :: ks, l => by
    rw [prettyOnto, any_prettyOnto ind ks, any_glue, pretty]
    simp [X.isElem]

theorem hasInlines_append (m) (a b : List X) : hasInlines m (a ++ b) = (hasInlines m a || hasInlines m b) := by
  induction a with
  | nil => simp [hasInlines]
  | cons x a ih => simp [hasInlines, ih, Bool.or_assoc]

theorem hasInlines_reverse (m) (a : List X) : hasInlines m a.reverse = hasInlines m a := by
  induction a with
  | nil => rfl
  | cons x a ih => simp [hasInlines_append, hasInlines, ih, Bool.or_comm]

theorem hasInlines_glue (m) (l : List X) (a : Text) : hasInlines m (glue l a) = hasInlines m l := by
  unfold glue
  by_cases ha : a = []
  · simp [ha]
  · rw [if_neg ha]
    cases l with
    | nil => simp [hasInlines, hasInline]
    | cons x l => cases x <;> simp [hasInlines, hasInline]

mutual
theorem hasInline_pretty (m : Text → Bool) (ind : Text) : ∀ x : X, hasInline m (pretty ind x) = hasInline m x
  | .text d => by rw [pretty]
  | .elem t as ks => by
    rw [pretty, hasInline, hasInline]
    by_cases hk : ks.isEmpty = true
    · rw [if_pos hk]
      rw [List.isEmpty_iff] at hk
      rw [hk]
    · rw [if_neg hk]
      cases ha : alone ks with
      | some d =>
        rw [alone_some ha]
        simp only
        rw [List.any_reverse, any_glue, hasInlines_reverse, hasInlines_glue]
        simp [X.isElem, hasInlines, hasInline]
      | none =>
        simp only
        rw [List.any_reverse, any_glue, any_prettyOnto, any_glue, hasInlines_reverse, hasInlines_glue, hasInlines_prettyOnto,
          hasInlines_glue]
        simp [hasInlines]
theorem hasInlines_prettyOnto (m : Text → Bool) (ind : Text) : ∀ (ks l : List X),
    hasInlines m (prettyOnto ind l ks) = (hasInlines m l || hasInlines m ks)
  | [], l => by simp [prettyOnto, hasInlines]
  | .text d :: ks, l => by
    rw [prettyOnto, hasInlines_prettyOnto m ind ks, hasInlines_glue]
    simp [hasInlines, hasInline]
  | .elem t as k :: ks, l => by
    rw [prettyOnto, hasInlines_prettyOnto m ind ks, hasInlines_glue, hasInlines, hasInlines_glue,
      hasInline_pretty m ind (.elem t as k), hasInlines]
    cases hasInline m (.elem t as k) <;> simp
end

theorem textLen_bind (m) : ∀ ks : List X, textLen (bindKids m ks) = textLen ks
  | [] => rfl
  | .text d :: ks => by simp [bindKids, bindRead, textLen, textLen_bind m ks]
  | .elem t as k :: ks => by simp [bindKids, bindRead, textLen, textLen_bind m ks]

theorem any_bind (m) : ∀ ks : List X, (bindKids m ks).any X.isElem = ks.any X.isElem
  | [] => rfl
  | .text d :: ks => by simp [bindKids, bindRead, X.isElem, any_bind m ks]
  | .elem t as k :: ks => by simp [bindKids, bindRead, X.isElem]

theorem drop_keeps (m) : ∀ ks : List X, inMixeds m (dropBlank ks) = inMixeds m ks ∧ hasInlines m (dropBlank ks) = hasInlines m ks ∧
    (goods ks = true → goods (dropBlank ks) = true)
  | [] => by simp [dropBlank, goods]
  | .text d :: ks => by
    obtain ⟨h1, h2, h3⟩ := drop_keeps m ks
    by_cases hb : (X.text d).isBlank = true
    · have : dropBlank (.text d :: ks) = dropBlank ks := by simp [dropBlank, hb]
      rw [this]
      refine ⟨by simp [inMixeds, inMixed, h1], by simp [hasInlines, hasInline, h2], ?_⟩
      intro h
      simp only [goods, Bool.and_eq_true] at h
      exact h3 h.2
    · have : dropBlank (.text d :: ks) = .text d :: dropBlank ks := by simp [dropBlank, hb]
      rw [this]
      refine ⟨by simp [inMixeds, h1], by simp [hasInlines, h2], ?_⟩
      intro h
      simp only [goods, Bool.and_eq_true] at h ⊢
      exact ⟨h.1, h3 h.2⟩
  | .elem t as k :: ks => by
    obtain ⟨h1, h2, h3⟩ := drop_keeps m ks
    have : dropBlank (.elem t as k :: ks) = .elem t as k :: dropBlank ks := by simp [dropBlank, X.isBlank]
    rw [this]
    refine ⟨by simp [inMixeds, h1], by simp [hasInlines, h2], ?_⟩
    intro h
    simp only [goods, Bool.and_eq_true] at h ⊢
    exact ⟨h.1, h3 h.2⟩

mutual
theorem bind_keeps (m) : ∀ x : X, inMixed m (bindRead m x) = inMixed m x ∧ hasInline m (bindRead m x) = hasInline m x ∧
    (good x = true → good (bindRead m x) = true)
  | .text d => by simp [bindRead]
  | .elem t as ks => by
    obtain ⟨h1, h2, h3⟩ := binds_keep m ks
    obtain ⟨k1, k2, k3⟩ := drop_keeps m (bindKids m ks)
    rw [bindRead]
    by_cases hm : m t = true
    · rw [if_pos hm]
      refine ⟨by simp [inMixed, hm, textLen_bind, h1], by simp [hasInline, any_bind, h2], ?_⟩
      intro h
      simp only [good, Bool.and_eq_true] at h ⊢
      exact ⟨h.1, h3 h.2⟩
    · rw [if_neg hm]
      refine ⟨by simp [inMixed, hm, k1, h1], by simp [hasInline, hm, k2, h2], ?_⟩
      intro h
      simp only [good, Bool.and_eq_true] at h ⊢
      exact ⟨h.1, k3 (h3 h.2)⟩
theorem binds_keep (m) : ∀ ks : List X, inMixeds m (bindKids m ks) = inMixeds m ks ∧ hasInlines m (bindKids m ks) = hasInlines m ks ∧
    (goods ks = true → goods (bindKids m ks) = true)
  | [] => by simp [bindKids]
  | k :: ks => by
    obtain ⟨h1, h2, h3⟩ := bind_keeps m k
    obtain ⟨k1, k2, k3⟩ := binds_keep m ks
    rw [bindKids]
    refine ⟨by simp [inMixeds, h1, k1], by simp [hasInlines, h2, k2], ?_⟩
    intro h
    simp only [goods, Bool.and_eq_true] at h ⊢
    exact ⟨h3 h.1, k3 h.2⟩
end

theorem goods_append (a b : List X) : goods (a ++ b) = (goods a && goods b) := by
  induction a with
  | nil => simp [goods]
  | cons x a ih => simp [goods, ih, Bool.and_assoc]

theorem goods_reverse (a : List X) : goods a.reverse = goods a := by
  induction a with
  | nil => rfl
  | cons x a ih => simp [goods_append, goods, ih, Bool.and_comm]

theorem goods_glue {l : List X} {a : Text} (hl : goods l = true) (ha : a.all (fun c => c != '\r') = true) : goods (glue l a) = true := by
  unfold glue
  by_cases h0 : a = []
  · rw [if_pos h0]; exact hl
  · rw [if_neg h0]
    cases l with
    | nil => simp only [goods, good, Bool.and_true]; exact ha
    | cons x l =>
      cases x with
      | text b =>
        simp only [goods, good, Bool.and_eq_true] at hl ⊢
        rw [List.all_append, hl.1, ha]
        exact ⟨rfl, hl.2⟩
      | elem t as k =>
        simp only [goods, good, Bool.and_eq_true] at hl ⊢
        exact ⟨ha, hl⟩

theorem blank_good {ind : Text} (hi : ∀ c ∈ ind, c = ' ' ∨ c = '\n') : ind.all (fun c => c != '\r') = true := by
  rw [List.all_eq_true]
  intro c hc
  rcases hi c hc with rfl | rfl <;> decide

mutual
theorem good_pretty (ind : Text) (hi : ∀ c ∈ ind, c = ' ' ∨ c = '\n') : ∀ x : X, good x = true → good (pretty ind x) = true
  | .text d, h => by rw [pretty]; exact h
  | .elem t as ks, h => by
    rw [good, Bool.and_eq_true] at h
    rw [pretty, good, Bool.and_eq_true]
    refine ⟨h.1, ?_⟩
    by_cases hk : ks.isEmpty = true
    · rw [if_pos hk]; rfl
    · rw [if_neg hk]
      cases ha : alone ks with
      | some d =>
        have h2 := h.2
        rw [alone_some ha] at h2
        simp only [goods, good, Bool.and_true] at h2
        simp only
        rw [goods_reverse]
        exact goods_glue (by rfl) h2
      | none =>
        simp only
        rw [goods_reverse]
        exact goods_glue (goods_prettyOnto _ (indent_blank hi) ks _ h.2 (by decide)) (blank_good hi)
theorem goods_prettyOnto (ind : Text) (hi : ∀ c ∈ ind, c = ' ' ∨ c = '\n') : ∀ (ks l : List X), goods ks = true → goods l = true →
    goods (prettyOnto ind l ks) = true
  | [], l, _, hl => by rw [prettyOnto]; exact hl
  | .text d :: ks, l, h, hl => by
    rw [goods, Bool.and_eq_true] at h
    have hd := h.1
    rw [good] at hd
    rw [prettyOnto]
    exact goods_prettyOnto ind hi ks _ h.2 (goods_glue hl (by rw [List.all_append, List.all_append, hd, blank_good hi]; rfl))
  | .elem t as k :: ks, l, h, hl => by
    rw [goods, Bool.and_eq_true] at h
    rw [prettyOnto]
    refine goods_prettyOnto ind hi ks _ h.2 (goods_glue ?_ (by decide))
    rw [goods, good_pretty ind hi _ h.1, goods_glue hl (blank_good hi)]
    rfl
end

/-- C68 is false of documents with a span or line break in a text element: every node that passes such a document
on as text makes its text longer, by four characters of white space at least, without end. -/
theorem C68_false_grows (mixed : Text → Bool) (n : Nat) : ∀ (t : Text) (as : List (Text × Text)) (ks : List X),
    good (.elem t as ks) = true → hasInline mixed (.elem t as ks) = true →
    ∃ y, trips mixed n (.elem t as ks) = some y ∧ inMixed mixed (.elem t as ks) + 4 * n ≤ inMixed mixed y := by
  induction n with
  | zero => intro t as ks _ _; exact ⟨_, rfl, by omega⟩
  | succ n ih =>
    intro t as ks h hin
    obtain ⟨k1, k2, k3⟩ := bind_keeps mixed (pretty [] (.elem t as ks))
    have hlen := inMixed_pretty mixed [] (.elem t as ks)
    rw [hin] at hlen
    simp only [extra, if_true] at hlen
    have hi' := k2
    rw [hasInline_pretty, hin] at hi'
    have hg := k3 (good_pretty [] (by simp) _ h)
    rw [trips, trip, readDoc_writeDoc t as ks h, Option.map_some, Option.bind_some]
    cases hb : bindRead mixed (pretty [] (.elem t as ks)) with
    | text d => rw [pretty, bindRead] at hb; simp at hb
    | elem t' as' ks' =>
      rw [hb] at hi' hg k1
      obtain ⟨y, hy, hle⟩ := ih t' as' ks' hg hi'
      exact ⟨y, hy, by omega⟩

/-- C68 is false of text beside other content: a word of which a part is in a span is torn apart. -/
theorem C68_false_mixed :
    (readDoc (writeDoc (.elem "p".toList [] [.text "Hel".toList, .elem "span".toList [] [.text "lo".toList]]))).map texts =
      some [.opened "p".toList [], .text "\n  Hel\n  ".toList, .opened "span".toList [], .text "lo".toList, .closed "span".toList,
        .closed "p".toList] := by
  decide +kernel

/-! ### The hypotheses are met -/

/-- A subtitle of two spans with characters that have a meaning in XML. -/
def exDoc : X :=
  .elem "tt:tt".toList [("ttp:timeBase".toList, "media".toList), ("a".toList, "\"<&>".toList)]
    [.elem "tt:p".toList [] [.elem "tt:span".toList [] [.text "a < b & c ".toList], .elem "tt:br".toList [] [],
      .elem "tt:span".toList [("xml:id".toList, "s".toList)] [.text " d".toList]]]

example : good exDoc = true ∧ apart exDoc = true ∧ hasInline (fun t => t = "tt:p".toList || t = "tt:span".toList) exDoc = true := by
  decide +kernel

/-- A subtitle without spans. -/
def exPlain : X :=
  .elem "tt:tt".toList [] [.elem "tt:div".toList [] [.elem "tt:p".toList [] [.text " one\ntwo & three".toList], .elem "tt:p".toList [] []]]

example : good exPlain = true ∧ plain (fun t => t = "tt:p".toList || t = "tt:span".toList) exPlain = true := by decide +kernel

end Verif.Xml
