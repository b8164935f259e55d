import Verif.Ui.Lemmas

/-!
# Reading the documents of the user input page
-/
namespace Verif.Ui

open Verif.Xml (Text X St Mode glue blank nameOk run_append run_cons run_nil)

/-! ### Reading the rendered template -/

theorem run_prolog : Xml.run ⟨[], [], .text⟩ prolog = ⟨[ws "\n"], [], .text⟩ :=
  reads_run (by decide +kernel) []

theorem run_tt (l u) : Xml.run ⟨l, u, .text⟩ "<tt:tt".toList = ⟨l, u, .name "tt:tt".toList⟩ := rfl

theorem run_nameGap (l u) (n : Text) (c : Char) (w : Text) (h : (c :: w).all blank = true) :
    Xml.run ⟨l, u, .name n⟩ (c :: w) = ⟨l, u, .gap n []⟩ := by
  rw [List.all_cons, Bool.and_eq_true] at h
  have hb := h.1
  have h2 : c ≠ '>' := fun he => by rw [he] at hb; exact absurd hb (by decide)
  have h3 : c ≠ '/' := fun he => by rw [he] at hb; exact absurd hb (by decide)
  rw [run_cons]
  have h1 : Xml.step ⟨l, u, .name n⟩ c = ⟨l, u, .gap n []⟩ := by simp [Xml.step, h2, h3, hb]
  rw [h1, run_gap _ _ _ _ _ h.2]

theorem run_startTag (l u) (d : Data) (h : plainForm d = true) :
    Xml.run ⟨l, u, .text⟩ (startTag d) = ⟨[], ("tt:tt".toList, ttAttrs d, l) :: u, .text⟩ := by
  simp only [plainForm, Bool.and_eq_true] at h
  have b8 : "\n        ".toList.all blank = true := by decide
  have b6 : "\n      ".toList.all blank = true := by decide
  have b66 : "\n      \n      ".toList.all blank = true := by decide
  have hns : namespaces.all (fun a => nameOk a.1 && plainVal a.2) = true := by decide +kernel
  have n1 : nameOk "ebuttp:sequenceIdentifier".toList = true := by decide +kernel
  have n2 : nameOk "ebuttp:sequenceNumber".toList = true := by decide +kernel
  have n3 : nameOk "ttp:timeBase".toList = true := by decide +kernel
  have n4 : nameOk "ttp:clockMode".toList = true := by decide +kernel
  have n5 : nameOk "ebuttp:authorsGroupIdentifier".toList = true := by decide +kernel
  have n6 : nameOk "ebuttp:authorsGroupControlToken".toList = true := by decide +kernel
  have hg : Xml.run ⟨l, u, .name "tt:tt".toList⟩ "\n        ".toList = ⟨l, u, .gap "tt:tt".toList []⟩ :=
    run_nameGap l u _ '\n' "        ".toList (by decide)
  unfold startTag ttAttrs
  generalize "ebuttp:sequenceIdentifier".toList = a1 at n1 ⊢
  generalize "ebuttp:sequenceNumber".toList = a2 at n2 ⊢
  generalize "ttp:timeBase".toList = a3 at n3 ⊢
  generalize "ttp:clockMode".toList = a4 at n4 ⊢
  generalize "ebuttp:authorsGroupIdentifier".toList = a5 at n5 ⊢
  generalize "ebuttp:authorsGroupControlToken".toList = a6 at n6 ⊢
  generalize namespaces = ns at hns ⊢
  have ht := run_tt l u
  generalize "<tt:tt".toList = w0 at ht ⊢
  generalize "tt:tt".toList = t at ht hg ⊢
  generalize "\n        ".toList = w8 at b8 hg ⊢
  generalize "\n      ".toList = w6 at b6 ⊢
  generalize "\n      \n      ".toList = w66 at b66 ⊢
  simp only [run_append]
  rw [ht, hg, run_rawAttr _ _ _ _ _ _ n1 h.1.1.1.1.1.1.1, run_gap _ _ _ _ _ b8, run_rawAttr _ _ _ _ _ _ n2 (plainVal_digs _),
    run_gap _ _ _ _ _ b8, run_rawAttr _ _ _ _ _ _ n3 h.1.1.1.1.1.1.2, run_gap _ _ _ _ _ b6,
    run_optAttr _ _ _ _ _ _ _ _ b8 b6 n4 h.1.1.1.1.1.2, run_gap _ _ _ _ _ b66, run_optAttr _ _ _ _ _ _ _ _ b8 b6 n5 h.1.1.1.1.2,
    run_gap _ _ _ _ _ b6, run_optAttr _ _ _ _ _ _ _ _ b8 b6 n6 h.1.1.1.2, run_rawAttrs _ _ _ _ _ _ b8 hns]
  rfl

theorem run_head (u) : Xml.run ⟨[], u, .text⟩ headText = ⟨[ws "\n  ", headTree, ws "\n  "], u, .text⟩ :=
  reads_run (by decide +kernel) u

/-- The lines, read after the nodes `l` (the last first). -/
def linesOnto (l : List X) : List Text → List X
  | [] => l
  | [a] => glue l a
  | a :: ls => linesOnto (brElem :: glue l a) ls

theorem run_br (l u) : Xml.run ⟨l, u, .text⟩ brTag = ⟨brElem :: l, u, .text⟩ := rfl

theorem run_lines : ∀ (ls : List Text) (l u), (∀ a ∈ ls, plainText a = true ∧ '\r' ∉ a) →
    Xml.run ⟨l, u, .text⟩ (joinBr ls) = ⟨linesOnto l ls, u, .text⟩
  | [], l, u, _ => rfl
  | [a], l, u, h => run_rawText l u a (h a (by simp)).1 (h a (by simp)).2
  | a :: b :: ls, l, u, h => by
    rw [joinBr_cons a (by simp), run_append, run_append, run_rawText l u a (h a (by simp)).1 (h a (by simp)).2, run_br,
      run_lines (b :: ls) _ u (fun x hx => h x (List.mem_cons_of_mem _ hx))]
    rfl

theorem glue_textOf (k : List X) (a : Text) (h : k = [] ∨ ∃ k', k = brElem :: k') : glue k a = (textOf a).reverse ++ k := by
  unfold glue textOf
  by_cases ha : a = []
  · rw [if_pos ha, if_pos ha]; rfl
  · rw [if_neg ha, if_neg ha]
    rcases h with h | ⟨k', h⟩ <;> rw [h] <;> rfl

theorem linesOnto_eq : ∀ (ls : List Text) (k : List X), k = [] ∨ (∃ k', k = brElem :: k') → linesOnto k ls = (spanKids ls).reverse ++ k
  | [], k, _ => rfl
  | [a], k, h => glue_textOf k a h
  | a :: b :: ls, k, h => by
    have e1 : linesOnto k (a :: b :: ls) = linesOnto (brElem :: glue k a) (b :: ls) := rfl
    have e2 : spanKids (a :: b :: ls) = textOf a ++ brElem :: spanKids (b :: ls) := rfl
    rw [e1, e2, linesOnto_eq (b :: ls) _ (.inr ⟨_, rfl⟩), glue_textOf k a h]
    simp

theorem run_bodyOpen (l u) : Xml.run ⟨l, u, .text⟩ bodyOpen = ⟨l, u, .gap "tt:body".toList []⟩ := rfl

theorem run_openTag (l u) (n : Text) (bs : List (Text × Text)) (hn : nameOk n = true) (h : bs.all Xml.attrOk = true) :
    Xml.run ⟨l, u, .text⟩ ('<' :: n ++ bs.flatMap Xml.writeAttr ++ ['>']) = ⟨[], (n, bs, l) :: u, .text⟩ := by
  rw [run_append, Xml.run_open _ _ _ _ hn h, run_cons, run_nil, Xml.step_open]

theorem run_inner (u) (n : Text) (as) (l) :
    Xml.run ⟨l, u, .gap n as⟩ innerText =
    ⟨[], ("tt:span".toList, spanAttrs, []) :: ("tt:p".toList, pAttrs, [ws "\n      "]) :: ("tt:div".toList, divAttrs, [ws "\n    "]) :: (n, as, l) :: u, .text⟩ := by
  have h : innerText =
      '>' :: ("\n    ".toList ++ (('<' :: "tt:div".toList ++ divAttrs.flatMap Xml.writeAttr ++ ['>']) ++ ("\n      ".toList ++
        (('<' :: "tt:p".toList ++ pAttrs.flatMap Xml.writeAttr ++ ['>']) ++ ('<' :: "tt:span".toList ++ spanAttrs.flatMap Xml.writeAttr ++ ['>']))))) := by
    decide +kernel
  have d1 : nameOk "tt:div".toList = true := by decide +kernel
  have d2 : divAttrs.all Xml.attrOk = true := by decide +kernel
  have p1 : nameOk "tt:p".toList = true := by decide +kernel
  have p2 : pAttrs.all Xml.attrOk = true := by decide +kernel
  have s1 : nameOk "tt:span".toList = true := by decide +kernel
  have s2 : spanAttrs.all Xml.attrOk = true := by decide +kernel
  have w4 : ∀ u, Xml.run ⟨[], u, .text⟩ "\n    ".toList = ⟨[ws "\n    "], u, .text⟩ := fun u => reads_run (by decide +kernel) u
  have w6 : ∀ u, Xml.run ⟨[], u, .text⟩ "\n      ".toList = ⟨[ws "\n      "], u, .text⟩ := fun u => reads_run (by decide +kernel) u
  rw [h, run_cons]
  have h1 : Xml.step ⟨l, u, .gap n as⟩ '>' = ⟨[], (n, as, l) :: u, .text⟩ := by simp [Xml.step, St.opened]
  rw [h1, run_append, w4, run_append, run_openTag _ _ _ _ d1 d2, run_append, w6, run_append, run_openTag _ _ _ _ p1 p2, run_openTag _ _ _ _ s1 s2]

theorem run_tail (k l m : List X) (as bs) :
    Xml.run ⟨k, ("tt:span".toList, spanAttrs, []) :: ("tt:p".toList, pAttrs, [ws "\n      "]) :: ("tt:div".toList, divAttrs, [ws "\n    "]) ::
      ("tt:body".toList, bs, l) :: ("tt:tt".toList, as, m) :: [], .text⟩ tailText =
    ⟨.elem "tt:tt".toList as (l.reverse ++
      [.elem "tt:body".toList bs
        [ws "\n    ", .elem "tt:div".toList divAttrs
          [ws "\n      ", .elem "tt:p".toList pAttrs [.elem "tt:span".toList spanAttrs k.reverse], ws "\n    "],
        ws "\n  "], ws "\n"]) :: m, [], .text⟩ := by
  have h : tailText =
      ('<' :: '/' :: "tt:span".toList ++ ['>']) ++ (('<' :: '/' :: "tt:p".toList ++ ['>']) ++ ("\n    ".toList ++
        (('<' :: '/' :: "tt:div".toList ++ ['>']) ++ ("\n  ".toList ++ (('<' :: '/' :: "tt:body".toList ++ ['>']) ++ ("\n".toList ++
          ('<' :: '/' :: "tt:tt".toList ++ ['>']))))))) := by
    decide +kernel
  have s1 : nameOk "tt:span".toList = true := by decide +kernel
  have p1 : nameOk "tt:p".toList = true := by decide +kernel
  have d1 : nameOk "tt:div".toList = true := by decide +kernel
  have b1 : nameOk "tt:body".toList = true := by decide +kernel
  have t1 : nameOk "tt:tt".toList = true := by decide +kernel
  have wsp : ∀ (w : String) (t : Text) (as : List (Text × Text)) (ks l : List X) (u : List (Text × List (Text × Text) × List X)), w.toList ≠ [] → (∀ c ∈ w.toList, c = ' ' ∨ c = '\n') →
      Xml.run ⟨X.elem t as ks :: l, u, .text⟩ w.toList = ⟨ws w :: X.elem t as ks :: l, u, .text⟩ := by
    intro w t as ks l u hne hw
    rw [Xml.run_blanks _ _ _ hw]
    unfold glue
    rw [if_neg hne]
    rfl
  have e4 := fun t as ks l u => wsp "\n    " t as ks l u (by decide) (by decide)
  have e2 := fun t as ks l u => wsp "\n  " t as ks l u (by decide) (by decide)
  have e0 := fun t as ks l u => wsp "\n" t as ks l u (by decide) (by decide)
  clear wsp
  rw [h]
  clear h
  generalize "tt:span".toList = t1 at *
  generalize "tt:p".toList = t2 at *
  generalize "tt:div".toList = t3 at *
  generalize "tt:body".toList = t4 at *
  generalize "tt:tt".toList = t5 at *
  rw [run_append, run_endTag _ _ _ _ _ s1, run_append, run_endTag _ _ _ _ _ p1, run_append, e4, run_append,
    run_endTag _ _ _ _ _ d1, run_append, e2, run_append, run_endTag _ _ _ _ _ b1, run_append, e0, run_endTag _ _ _ _ _ t1]
  simp

/-- The content of the document element after the head. -/
def bodyTree (bs : List (Text × Text)) (ks : List X) : X :=
  .elem "tt:body".toList bs
    [ws "\n    ", .elem "tt:div".toList divAttrs
      [ws "\n      ", .elem "tt:p".toList pAttrs [.elem "tt:span".toList spanAttrs ks], ws "\n    "],
    ws "\n  "]

theorem run_bodyText (d : Data) (ls : List Text) (l m as) (hb : d.body = joinBr ls) (hf : plainForm d = true)
    (hls : ∀ a ∈ ls, plainText a = true ∧ '\r' ∉ a) :
    Xml.run ⟨l, [("tt:tt".toList, as, m)], .text⟩ (bodyText d) =
      ⟨.elem "tt:tt".toList as (l.reverse ++ [bodyTree (bodyAttrs d) (spanKids ls), ws "\n"]) :: m, [], .text⟩ := by
  have hf' := hf
  simp only [plainForm, Bool.and_eq_true] at hf'
  have b2 : indent2.all blank = true := by decide
  have b4 : indent4.all blank = true := by decide
  have n1 : nameOk "begin".toList = true := by decide +kernel
  have n2 : nameOk "end".toList = true := by decide +kernel
  have n3 : nameOk "dur".toList = true := by decide +kernel
  have ho := run_bodyOpen l [("tt:tt".toList, as, m)]
  have hi := run_inner [("tt:tt".toList, as, m)] "tt:body".toList (bodyAttrs d) l
  have ht := run_tail (spanKids ls).reverse l m as (bodyAttrs d)
  rw [List.reverse_reverse] at ht
  have hbody : bodyText d = bodyOpen ++ optAttr indent4 "begin".toList d.beg indent2 ++ indent2 ++ optAttr indent4 "end".toList d.fin indent2 ++ indent2 ++
    optAttr indent4 "dur".toList d.dur indent2 ++ indent2 ++ innerText ++ d.body ++ tailText := rfl
  rw [hbody, hb]
  simp only [run_append]
  rw [ho, run_optAttr _ _ _ _ _ _ _ _ b4 b2 n1 hf'.1.1.2, run_gap _ _ _ _ _ b2, run_optAttr _ _ _ _ _ _ _ _ b4 b2 n2 hf'.1.2,
    run_gap _ _ _ _ _ b2, run_optAttr _ _ _ _ _ _ _ _ b4 b2 n3 hf'.2, run_gap _ _ _ _ _ b2]
  have hi' : Xml.run ⟨l, [("tt:tt".toList, as, m)], .gap "tt:body".toList ([] ++ given "begin".toList d.beg ++ given "end".toList d.fin ++
    given "dur".toList d.dur)⟩ innerText = _ := hi
  rw [hi', run_lines _ _ _ hls, linesOnto_eq _ _ (.inl rfl), List.append_nil]
  exact ht

theorem run_render (d : Data) (t : Text) (hb : d.body = brs (areaVal t)) (hf : plainForm d = true) (ht : plainText t = true) :
    Xml.run ⟨[], [], .text⟩ (render d) = ⟨[docTree d (splitLines t), ws "\n"], [], .text⟩ := by
  have hls : ∀ a ∈ splitLines t, plainText a = true ∧ '\r' ∉ a := by
    intro a ha
    refine ⟨?_, fun hr => (splitLines_mem _ t (Nat.le_refl _) a ha _ hr).2.1 rfl⟩
    rw [plainText, List.all_eq_true] at ht ⊢
    exact fun c hc => ht c (splitLines_mem _ t (Nat.le_refl _) a ha c hc).1
  rw [brs_area _ _ (Nat.le_refl _)] at hb
  rw [render, run_append, run_append, run_append, run_prolog, run_startTag _ _ _ hf, run_head, run_bodyText d _ _ _ _ hb hf hls]
  rfl

/-! ### Lines -/

theorem splitLines_line : ∀ (l : Text), isLine l → ∀ (rest : Text), splitLines (l ++ '\n' :: rest) = l :: splitLines rest
  | [], _, rest => by simp [splitLines]
  | c :: l, h, rest => by
    have h1 : c ≠ '\r' := fun he => h.1 (by rw [he]; exact List.mem_cons_self)
    have h2 : c ≠ '\n' := fun he => h.2 (by rw [he]; exact List.mem_cons_self)
    have ih := splitLines_line l ⟨fun hm => h.1 (List.mem_cons_of_mem _ hm), fun hm => h.2 (List.mem_cons_of_mem _ hm)⟩ rest
    have e : splitLines (c :: (l ++ '\n' :: rest)) = onFirst c (splitLines (l ++ '\n' :: rest)) := by rw [splitLines] <;> simp [h1, h2]
    rw [List.cons_append, e, ih]
    rfl

theorem splitLines_last : ∀ (l : Text), isLine l → splitLines l = [l]
  | [], _ => by simp [splitLines]
  | c :: l, h => by
    have h1 : c ≠ '\r' := fun he => h.1 (by rw [he]; exact List.mem_cons_self)
    have h2 : c ≠ '\n' := fun he => h.2 (by rw [he]; exact List.mem_cons_self)
    have ih := splitLines_last l ⟨fun hm => h.1 (List.mem_cons_of_mem _ hm), fun hm => h.2 (List.mem_cons_of_mem _ hm)⟩
    have e : splitLines (c :: l) = onFirst c (splitLines l) := by rw [splitLines] <;> simp [h1, h2]
    rw [e, ih]
    rfl

theorem split_join : ∀ (ls : List Text), ls ≠ [] → (∀ l ∈ ls, isLine l) → splitLines (joinLines ls) = ls
  | [], h, _ => absurd rfl h
  | [l], _, h => splitLines_last l (h l (by simp))
  | l :: m :: ls, _, h => by
    have e : joinLines (l :: m :: ls) = l ++ '\n' :: joinLines (m :: ls) := rfl
    rw [e, splitLines_line l (h l (by simp)), split_join (m :: ls) (by simp) (fun x hx => h x (List.mem_cons_of_mem _ hx))]

theorem plainText_join : ∀ (ls : List Text), (∀ l ∈ ls, plainText l = true) → plainText (joinLines ls) = true
  | [], _ => rfl
  | [l], h => h l (by simp)
  | l :: m :: ls, h => by
    have e : joinLines (l :: m :: ls) = l ++ '\n' :: joinLines (m :: ls) := rfl
    have h1 := h l (by simp)
    have h2 := plainText_join (m :: ls) (fun x hx => h x (List.mem_cons_of_mem _ hx))
    unfold plainText at h1 h2 ⊢
    rw [e, List.all_append, List.all_cons, h1, h2]
    rfl

theorem join_break : ∀ (ls : List Text), ls ≠ [] → joinLines ls ++ ['\n'] = joinLines (ls ++ [[]])
  | [], h => absurd rfl h
  | [l], _ => rfl
  | l :: m :: ls, _ => by
    have e1 : joinLines (l :: m :: ls) = l ++ '\n' :: joinLines (m :: ls) := rfl
    have e2 : joinLines (l :: m :: ls ++ [[]]) = l ++ '\n' :: joinLines (m :: ls ++ [[]]) := rfl
    rw [e1, e2, ← join_break (m :: ls) (by simp)]
    simp

theorem shiftLoop_eq (max : Nat) (hm : 1 ≤ max) : ∀ (n : Nat) (ls : List Text), ls.length < n → shiftLoop max n ls = some (shiftAll max ls) := by
  intro n
  induction n with
  | zero => intro ls h; omega
  | succ n ih =>
    intro ls h
    unfold shiftLoop shiftOnce
    by_cases hl : ls.length ≥ max
    · rw [if_pos hl]
      cases ls with
      | nil => simp at hl; omega
      | cons a ls =>
        simp only [List.length_cons, List.tail_cons, ge_iff_le] at h hl ⊢
        rw [ih ls (by omega)]
        have : ls.length + 1 + 1 - max = (ls.length + 1 - max) + 1 := by omega
        simp only [shiftAll, List.length_cons]
        rw [this, List.drop_succ_cons]
    · rw [if_neg hl]
      have : ls.length + 1 - max = 0 := by omega
      simp only [shiftAll]
      rw [this, List.drop_zero]

theorem isBlank_doc (d : Data) (ls) : (docTree d ls).isBlank = false := rfl

theorem readDoc_render (d : Data) (t : Text) (hb : d.body = brs (areaVal t)) (hf : plainForm d = true) (ht : plainText t = true) :
    Xml.readDoc (render d) = some (docTree d (splitLines t)) := by
  unfold Xml.readDoc
  rw [run_render d t hb hf ht]
  have h1 : (ws "\n").isBlank = true := by decide +kernel
  have h2 : List.filter (fun x => !x.isBlank) [docTree d (splitLines t), ws "\n"] = [docTree d (splitLines t)] := by
    rw [List.filter_cons, List.filter_cons, h1, isBlank_doc]
    rfl
  simp only [h2]
  rfl

end Verif.Ui
