import Verif.Xml.Model

/-!
# Reading what was written
-/
namespace Verif.Xml

theorem glue_nil (l : List X) : glue l [] = l := by simp [glue]

theorem glue_glue (l : List X) (a b : Text) : glue (glue l a) b = glue l (a ++ b) := by
  unfold glue
  by_cases hb : b = []
  · simp [hb]
  · by_cases ha : a = []
    · simp [ha]
    · simp only [ha, hb, if_false, List.append_eq_nil_iff, false_and]
      cases l with
      | nil => simp
      | cons x l => cases x <;> simp

theorem run_append (s : St) (a b : Text) : run s (a ++ b) = run (run s a) b := by simp [run]

theorem run_cons (s : St) (c : Char) (b : Text) : run s (c :: b) = run (step s c) b := rfl

theorem run_nil (s : St) : run s [] = s := rfl

/-! ### Texts -/

theorem run_char (l : List X) (up) (c : Char) (h : c ≠ '\r') : run ⟨l, up, .text⟩ (escChar c) = ⟨glue l [c], up, .text⟩ := by
  unfold escChar
  by_cases h1 : c = '&'
  · rw [if_pos h1, h1]; rfl
  rw [if_neg h1]
  by_cases h2 : c = '<'
  · rw [if_pos h2, h2]; rfl
  rw [if_neg h2]
  by_cases h3 : c = '"'
  · rw [if_pos h3, h3]; rfl
  rw [if_neg h3]
  by_cases h4 : c = '>'
  · rw [if_pos h4, h4]; rfl
  rw [if_neg h4, run_cons, run_nil]
  simp [step, h1, h2, h]

theorem run_text (l : List X) (up) (d : Text) (h : '\r' ∉ d) : run ⟨l, up, .text⟩ (escape d) = ⟨glue l d, up, .text⟩ := by
  induction d generalizing l with
  | nil => simp [escape, run_nil, glue_nil]
  | cons c d ih =>
    rw [List.mem_cons, not_or] at h
    rw [escape, List.flatMap_cons, run_append, run_char _ _ _ (fun e => h.1 e.symm)]
    have := ih (glue l [c]) h.2
    rw [escape] at this
    rw [this, glue_glue]
    rfl

/-- White space is written as it is. -/
theorem run_blanks (l : List X) (up) (d : Text) (h : ∀ c ∈ d, c = ' ' ∨ c = '\n') : run ⟨l, up, .text⟩ d = ⟨glue l d, up, .text⟩ := by
  have he : escape d = d := by
    induction d with
    | nil => rfl
    | cons c d ih =>
      rw [escape, List.flatMap_cons]
      have := ih (fun x hx => h x (List.mem_cons_of_mem _ hx))
      rw [escape] at this
      rw [this]
      rcases h c List.mem_cons_self with rfl | rfl <;> rfl
  have := run_text l up d (by
    intro hm
    rcases h _ hm with h | h <;> simp at h)
  rwa [he] at this

/-! ### Tags -/

/-- A character of a name. -/
def nameChar (c : Char) : Bool :=
  !(blank c) && c != '/' && c != '>' && c != '=' && c != '"' && c != '<' && c != '&' && c != '?'

/-- A name. -/
def nameOk (n : Text) : Bool := !n.isEmpty && n.all nameChar

theorem run_name (l up) (n m : Text) (h : m.all nameChar = true) : run ⟨l, up, .name n⟩ m = ⟨l, up, .name (n ++ m)⟩ := by
  induction m generalizing n with
  | nil => simp [run_nil]
  | cons c m ih =>
    rw [List.all_cons, Bool.and_eq_true] at h
    have hc := h.1
    simp only [nameChar, Bool.and_eq_true, Bool.not_eq_true', bne_iff_ne, ne_eq] at hc
    rw [run_cons]
    have : step ⟨l, up, .name n⟩ c = ⟨l, up, .name (n ++ [c])⟩ := by simp [step, hc]
    rw [this, ih _ h.2, List.append_assoc]
    rfl

theorem run_close (l up) (n m : Text) (h : m.all nameChar = true) : run ⟨l, up, .close n⟩ m = ⟨l, up, .close (n ++ m)⟩ := by
  induction m generalizing n with
  | nil => simp [run_nil]
  | cons c m ih =>
    rw [List.all_cons, Bool.and_eq_true] at h
    have hc := h.1
    simp only [nameChar, Bool.and_eq_true, Bool.not_eq_true', bne_iff_ne, ne_eq] at hc
    rw [run_cons]
    have : step ⟨l, up, .close n⟩ c = ⟨l, up, .close (n ++ [c])⟩ := by simp [step, hc]
    rw [this, ih _ h.2, List.append_assoc]
    rfl

theorem run_attrName (l up) (n : Text) (as) (a m : Text) (h : m.all nameChar = true) :
    run ⟨l, up, .attr n as a⟩ m = ⟨l, up, .attr n as (a ++ m)⟩ := by
  induction m generalizing a with
  | nil => simp [run_nil]
  | cons c m ih =>
    rw [List.all_cons, Bool.and_eq_true] at h
    have hc := h.1
    simp only [nameChar, Bool.and_eq_true, Bool.not_eq_true', bne_iff_ne, ne_eq] at hc
    rw [run_cons]
    have : step ⟨l, up, .attr n as a⟩ c = ⟨l, up, .attr n as (a ++ [c])⟩ := by simp [step, hc]
    rw [this, ih _ h.2, List.append_assoc]
    rfl

/-- A value without line breaks and tabs. -/
def valOk (v : Text) : Bool := v.all (fun c => c == ' ' || !(blank c))

theorem run_valChar (l up) (n : Text) (as) (a v : Text) (c : Char) (h : (c == ' ' || !(blank c)) = true) :
    run ⟨l, up, .val n as a v⟩ (escChar c) = ⟨l, up, .val n as a (v ++ [c])⟩ := by
  unfold escChar
  by_cases h1 : c = '&'
  · rw [if_pos h1, h1]; rfl
  rw [if_neg h1]
  by_cases h2 : c = '<'
  · rw [if_pos h2, h2]; rfl
  rw [if_neg h2]
  by_cases h3 : c = '"'
  · rw [if_pos h3, h3]; rfl
  rw [if_neg h3]
  by_cases h4 : c = '>'
  · rw [if_pos h4, h4]; rfl
  rw [if_neg h4, run_cons, run_nil]
  have : (if blank c = true then ' ' else c) = c := by
    by_cases hs : c = ' '
    · subst hs; decide
    · simp only [Bool.or_eq_true, beq_iff_eq, hs, false_or, Bool.not_eq_true'] at h
      simp [h]
  simp only [step, h3, h1, if_false, this]

theorem run_val (l up) (n : Text) (as) (a v w : Text) (h : valOk w = true) :
    run ⟨l, up, .val n as a v⟩ (escape w) = ⟨l, up, .val n as a (v ++ w)⟩ := by
  induction w generalizing v with
  | nil => simp [escape, run_nil]
  | cons c w ih =>
    rw [valOk, List.all_cons, Bool.and_eq_true] at h
    rw [escape, List.flatMap_cons, run_append, run_valChar _ _ _ _ _ _ _ h.1]
    have := ih (v ++ [c]) h.2
    rw [escape] at this
    rw [this, List.append_assoc]
    rfl

/-- An attribute the text of a document can hold. -/
def attrOk (a : Text × Text) : Bool := nameOk a.1 && valOk a.2

/-- In a start tag, after the name or an attribute. -/
def tagMode (n : Text) (as : List (Text × Text)) : Mode := if as = [] then .name n else .gap n as

theorem step_space (l up) (n : Text) (as) : step ⟨l, up, tagMode n as⟩ ' ' = ⟨l, up, .gap n as⟩ := by
  unfold tagMode
  by_cases h : as = []
  · rw [if_pos h, h]; simp [step, blank]
  · rw [if_neg h]; simp [step, blank]

theorem run_attr (l up) (n : Text) (as) (a : Text × Text) (h : attrOk a = true) :
    run ⟨l, up, tagMode n as⟩ (writeAttr a) = ⟨l, up, tagMode n (as ++ [a])⟩ := by
  obtain ⟨k, v⟩ := a
  simp only [attrOk, nameOk, Bool.and_eq_true] at h
  cases k with
  | nil => simp at h
  | cons c k =>
    have hc : nameChar c = true ∧ k.all nameChar = true := by
      have := h.1.2
      rwa [List.all_cons, Bool.and_eq_true] at this
    have hc1 := hc.1
    simp only [nameChar, Bool.and_eq_true, Bool.not_eq_true', bne_iff_ne, ne_eq] at hc1
    rw [writeAttr]
    simp only [List.cons_append, List.append_assoc]
    rw [run_cons, step_space, run_cons]
    have h1 : step ⟨l, up, .gap n as⟩ c = ⟨l, up, .attr n as [c]⟩ := by simp [step, hc1]
    rw [h1, run_append, run_attrName _ _ _ _ _ _ hc.2, run_cons, run_cons]
    have h2 : step (step ⟨l, up, .attr n as ([c] ++ k)⟩ '=') '"' = ⟨l, up, .val n as (c :: k) []⟩ := by simp [step]
    rw [h2, run_append, run_val _ _ _ _ _ _ _ h.2, run_cons, run_nil]
    simp [step, tagMode]

theorem run_attrs (l up) (n : Text) (as bs : List (Text × Text)) (h : bs.all attrOk = true) :
    run ⟨l, up, tagMode n as⟩ (bs.flatMap writeAttr) = ⟨l, up, tagMode n (as ++ bs)⟩ := by
  induction bs generalizing as with
  | nil => simp [run_nil]
  | cons b bs ih =>
    rw [List.all_cons, Bool.and_eq_true] at h
    rw [List.flatMap_cons, run_append, run_attr _ _ _ _ _ h.1, ih _ h.2, List.append_assoc]
    rfl

/-- A start tag up to its last character. -/
theorem run_open (l up) (n : Text) (bs : List (Text × Text)) (hn : nameOk n = true) (h : bs.all attrOk = true) :
    run ⟨l, up, .text⟩ ('<' :: n ++ bs.flatMap writeAttr) = ⟨l, up, tagMode n bs⟩ := by
  simp only [nameOk, Bool.and_eq_true] at hn
  cases n with
  | nil => simp at hn
  | cons c n =>
    have hc : nameChar c = true ∧ n.all nameChar = true := by
      have := hn.2
      rwa [List.all_cons, Bool.and_eq_true] at this
    have hc1 := hc.1
    simp only [nameChar, Bool.and_eq_true, Bool.not_eq_true', bne_iff_ne, ne_eq] at hc1
    rw [List.cons_append, List.cons_append, run_cons, run_cons]
    have h1 : step (step ⟨l, up, .text⟩ '<') c = ⟨l, up, .name [c]⟩ := by simp [step, hc1]
    rw [h1, run_append, run_name _ _ _ _ hc.2]
    have := run_attrs l up (c :: n) [] bs h
    simp only [tagMode, if_true, List.nil_append] at this
    exact this

theorem step_open (l up) (n : Text) (bs) : step ⟨l, up, tagMode n bs⟩ '>' = ⟨[], (n, bs, l) :: up, .text⟩ := by
  unfold tagMode
  by_cases h : bs = []
  · rw [if_pos h, h]; simp [step, St.opened]
  · rw [if_neg h]; simp [step, St.opened]

theorem run_empty (l up) (n : Text) (bs) : run ⟨l, up, tagMode n bs⟩ ['/', '>', '\n'] = ⟨glue (.elem n bs [] :: l) ['\n'], up, .text⟩ := by
  unfold tagMode
  by_cases h : bs = []
  · rw [if_pos h, h]; simp [run, step]
  · rw [if_neg h]; simp [run, step]

theorem run_end (k l up) (n : Text) (bs) (hn : nameOk n = true) :
    run ⟨k, (n, bs, l) :: up, .text⟩ ('<' :: '/' :: n ++ ['>', '\n']) = ⟨glue (.elem n bs k.reverse :: l) ['\n'], up, .text⟩ := by
  simp only [nameOk, Bool.and_eq_true] at hn
  rw [List.cons_append, List.cons_append, run_cons, run_cons]
  have h1 : step (step ⟨k, (n, bs, l) :: up, .text⟩ '<') '/' = ⟨k, (n, bs, l) :: up, .close []⟩ := by simp [step]
  rw [h1, run_append, run_close _ _ _ _ hn.2]
  simp [run, step]

/-! ### Trees -/

mutual
/-- A document whose text can be read: proper names, values without line breaks, no carriage returns. -/
def good : X → Bool
  | .text d => d.all (fun c => c != '\r')
  | .elem t as ks => nameOk t && as.all attrOk && goods ks
def goods : List X → Bool
  | [] => true
  | k :: ks => good k && goods ks
end

mutual
/-- What is read of what was written: an element. -/
def pretty (ind : Text) : X → X
  | .text d => .text d
  | .elem t as ks =>
    .elem t as
      (if ks.isEmpty = true then []
       else
        match alone ks with
        | some d => (glue [] d).reverse
        | none => (glue (prettyOnto (ind ++ [' ', ' ']) (glue [] ['\n']) ks) ind).reverse)
/-- Children, added to what was read before. -/
def prettyOnto (ind : Text) (l : List X) : List X → List X
  | [] => l
  | .text d :: ks => prettyOnto ind (glue l (ind ++ d ++ ['\n'])) ks
  | .elem t as k :: ks => prettyOnto ind (glue (pretty ind (.elem t as k) :: glue l ind) ['\n']) ks
end

theorem not_mem_r {d : Text} (h : d.all (fun c => c != '\r') = true) : '\r' ∉ d := by
  intro hm
  have := List.all_eq_true.mp h _ hm
  simp at this

mutual
theorem run_node (ind : Text) (hi : ∀ c ∈ ind, c = ' ' ∨ c = '\n') : ∀ (x : X) (l up), good x = true →
    run ⟨l, up, .text⟩ (writeNode ind x) = ⟨prettyOnto ind l [x], up, .text⟩
  | .text d, l, up, h => by
    rw [good] at h
    rw [writeNode, run_append, run_append, run_blanks _ _ _ hi, run_text _ _ _ (not_mem_r h),
      run_blanks _ _ _ (by simp), glue_glue, glue_glue]
    simp [prettyOnto]
  | .elem t as ks, l, up, h => by
    simp only [good, Bool.and_eq_true] at h
    obtain ⟨⟨ht, has⟩, hks⟩ := h
    have hi2 : ∀ c ∈ ind ++ [' ', ' '], c = ' ' ∨ c = '\n' := by
      intro c hc
      rcases List.mem_append.mp hc with hc | hc
      · exact hi c hc
      · simp at hc; exact .inl hc
    rw [writeNode]
    have e1 : ∀ r : Text, ind ++ '<' :: t ++ as.flatMap writeAttr ++ r = ind ++ (('<' :: t ++ as.flatMap writeAttr) ++ r) := by
      intro r; simp
    rw [e1, run_append, run_blanks _ _ _ hi, run_append, run_open _ _ _ _ ht has]
    simp only [prettyOnto, pretty]
    by_cases hk : ks.isEmpty = true
    · rw [if_pos hk, if_pos hk, run_empty]
    · rw [if_neg hk, if_neg hk]
      cases ha : alone ks with
      | some d =>
        have hd : '\r' ∉ d := by
          match ks, ha with
          | [.text d'], ha =>
            simp only [alone, Option.some.injEq] at ha
            subst ha
            simp only [goods, good, Bool.and_true] at hks
            exact not_mem_r hks
        simp only
        rw [List.cons_append, List.cons_append, run_cons, step_open]
        have e2 : escape d ++ '<' :: '/' :: t ++ ['>', '\n'] = escape d ++ ('<' :: '/' :: t ++ ['>', '\n']) := by simp
        rw [e2, run_append, run_text _ _ _ hd, run_end _ _ _ _ _ ht]
      | none =>
        simp only
        have e2 : '>' :: '\n' :: writeKids (ind ++ [' ', ' ']) ks ++ ind ++ '<' :: '/' :: t ++ ['>', '\n'] =
            '>' :: (['\n'] ++ (writeKids (ind ++ [' ', ' ']) ks ++ (ind ++ ('<' :: '/' :: t ++ ['>', '\n'])))) := by simp
        rw [e2, run_cons, step_open, run_append, run_blanks _ _ _ (by simp), run_append, run_kids _ hi2 ks _ _ hks, run_append,
          run_blanks _ _ _ hi, run_end _ _ _ _ _ ht]
theorem run_kids (ind : Text) (hi : ∀ c ∈ ind, c = ' ' ∨ c = '\n') : ∀ (ks : List X) (l up), goods ks = true →
    run ⟨l, up, .text⟩ (writeKids ind ks) = ⟨prettyOnto ind l ks, up, .text⟩
  | [], l, up, _ => by simp [writeKids, run_nil, prettyOnto]
  | k :: ks, l, up, h => by
    simp only [goods, Bool.and_eq_true] at h
    rw [writeKids, run_append, run_node ind hi k _ _ h.1, run_kids ind hi ks _ _ h.2]
    cases k <;> simp [prettyOnto]
end

/-- Reading a written document. -/
theorem readDoc_writeDoc (t : Text) (as) (ks : List X) (h : good (.elem t as ks) = true) :
    readDoc (writeDoc (.elem t as ks)) = some (pretty [] (.elem t as ks)) := by
  unfold readDoc writeDoc
  rw [run_append]
  have h1 : run ⟨[], [], .text⟩ "<?xml version=\"1.0\" ?>\n".toList = ⟨[.text ['\n']], [], .text⟩ := by rfl
  rw [h1, run_node [] (by simp) _ _ _ h]
  simp only [prettyOnto, glue_nil]
  have h2 : glue (pretty [] (.elem t as ks) :: [.text ['\n']]) ['\n'] = [.text ['\n'], pretty [] (.elem t as ks), .text ['\n']] := by
    simp [pretty, glue]
  rw [h2]
  simp [pretty, X.isBlank, blank]

end Verif.Xml
