import Verif.Seq.VerboseLemmas
import Mathlib.Data.List.Forall2

/-! C92: logging the contents of the documents (`verbose`) changes nothing about the sequence, unless a paragraph has metadata. -/
namespace Verif.Print

/-! ### Specification -/

mutual
/-- There is a `tt:metadata` in the item. -/
def Item.hasMetadata : Item → Bool
  | .metadata => true
  | .span _ _ its => anyMetadata its
  | _ => false

/-- There is a `tt:metadata` in one of the items. -/
def anyMetadata : List Item → Bool
  | [] => false
  | i :: rest => i.hasMetadata || anyMetadata rest
end

mutual
/-- The texts and line breaks of the item in document order. -/
def Item.words : Item → List Line
  | .text s => [.text s]
  | .br => [.br]
  | .metadata => []
  | .span _ _ its => allWords its

/-- The texts and line breaks of the items in document order. -/
def allWords : List Item → List Line
  | [] => []
  | i :: rest => i.words ++ allWords rest
end

/-- The line is not one about timings. -/
def Line.isWord : Line → Bool
  | .text _ | .br => true
  | _ => false

/-! ### Lemmas -/

mutual
theorem item_isSome (b e : Option Int) : ∀ i : Item, (item b e i).isSome = !i.hasMetadata
  | .text s => by simp [item, Item.hasMetadata]
  | .br => by simp [item, Item.hasMetadata]
  | .metadata => by simp [item, Item.hasMetadata]
  | .span cb ce its => by
    have := items_isSome b e its
    simp only [item, Item.hasMetadata, Option.isSome_map]
    exact this

theorem items_isSome (b e : Option Int) : ∀ l : List Item, (items b e l).isSome = !anyMetadata l
  | [] => by simp [items, anyMetadata]
  | i :: rest => by
    have h1 := item_isSome b e i
    have h2 := items_isSome b e rest
    simp only [items, anyMetadata]
    cases hi : item b e i with
    | none =>
      rw [hi] at h1
      simp at h1
      simp [h1]
    | some l =>
      rw [hi] at h1
      simp at h1
      simp only [Option.isSome_map, h1, Bool.false_or]
      exact h2
end

theorem timings_words (cb : Int) (ce b e : Option Int) : (timings cb ce b e).filter Line.isWord = [] := by
  unfold timings
  cases e with
  | none => rfl
  | some e =>
    simp only
    split <;> rfl

mutual
theorem item_words (b e : Option Int) : ∀ (i : Item) (l : List Line), item b e i = some l →
    l.filter Line.isWord = i.words
  | .text s, l, h => by simp only [item] at h; injection h with h; subst h; rfl
  | .br, l, h => by simp only [item] at h; injection h with h; subst h; rfl
  | .metadata, l, h => by simp [item] at h
  | .span cb ce its, l, h => by
    simp only [item] at h
    rw [Option.map_eq_some_iff] at h
    obtain ⟨r, hr, hl⟩ := h
    rw [← hl, List.filter_append, timings_words, List.nil_append]
    exact items_words b e its r hr

theorem items_words (b e : Option Int) : ∀ (is : List Item) (l : List Line), items b e is = some l →
    l.filter Line.isWord = allWords is
  | [], l, h => by simp only [items] at h; injection h with h; subst h; rfl
  | i :: rest, l, h => by
    simp only [items] at h
    cases hi : item b e i with
    | none => rw [hi] at h; simp at h
    | some li =>
      rw [hi] at h
      simp only at h
      rw [Option.map_eq_some_iff] at h
      obtain ⟨r, hr, hl⟩ := h
      rw [← hl, List.filter_append, item_words b e i li hi, items_words b e rest r hr]
      rfl
end

theorem paras_isSome (b e : Option Int) (ps : List Para) :
    (paras b e ps).isSome = ps.all (fun p => !anyMetadata p.items) := by
  induction ps with
  | nil => rfl
  | cons p ps ih =>
    have h1 : (para b e p).isSome = !anyMetadata p.items := by
      unfold para; rw [Option.isSome_map]; exact items_isSome b e p.items
    simp only [paras, List.all_cons]
    cases hp : para b e p with
    | none => rw [hp] at h1; simp at h1; simp [h1]
    | some l =>
      rw [hp] at h1
      simp at h1
      rw [h1]
      simp only [Option.isSome_map, ih]
      rfl

theorem paras_words (b e : Option Int) : ∀ (ps : List Para) (l : List Line), paras b e ps = some l →
    l.filter Line.isWord = ps.flatMap (fun p => allWords p.items) := by
  intro ps
  induction ps with
  | nil => intro l h; simp only [paras] at h; injection h with h; subst h; rfl
  | cons p ps ih =>
    intro l h
    simp only [paras] at h
    cases hp : para b e p with
    | none => rw [hp] at h; simp at h
    | some lp =>
      rw [hp] at h
      simp only at h
      rw [Option.map_eq_some_iff] at h
      obtain ⟨r, hr, hl⟩ := h
      unfold para at hp
      rw [Option.map_eq_some_iff] at hp
      obtain ⟨q, hq, hlp⟩ := hp
      rw [← hl, List.filter_append, ← hlp, List.filter_append, timings_words, List.nil_append, items_words b e _ q hq, ih r hr]
      rfl

theorem insertPara_perm (p : Para) (l : List Para) : (insertPara p l).Perm (p :: l) := by
  induction l with
  | nil => simp [insertPara]
  | cons y ys ih =>
    simp only [insertPara]
    split
    · exact List.Perm.refl _
    · exact (List.Perm.cons y ih).trans (List.Perm.swap p y ys)

theorem foldl_perm : ∀ (ps acc : List Para), (ps.foldl (fun acc p => insertPara p acc) acc).Perm (ps ++ acc) := by
  intro ps
  induction ps with
  | nil => intro acc; exact List.Perm.refl _
  | cons p ps ih =>
    intro acc
    simp only [List.foldl_cons]
    refine (ih _).trans ?_
    refine ((insertPara_perm p acc).append_left ps).trans ?_
    exact List.perm_middle

theorem inOrder_perm (ps : List Para) : (inOrder ps).Perm ps := by
  have := foldl_perm ps []
  simpa [inOrder] using this

theorem insertPara_sorted (p : Para) (l : List Para) (h : l.Pairwise (fun a b => a.cbegin ≤ b.cbegin)) :
    (insertPara p l).Pairwise (fun a b => a.cbegin ≤ b.cbegin) := by
  induction l with
  | nil => simp [insertPara]
  | cons y ys ih =>
    rw [List.pairwise_cons] at h
    simp only [insertPara]
    split
    · rename_i hlt
      rw [List.pairwise_cons, List.pairwise_cons]
      refine ⟨?_, h.1, h.2⟩
      intro z hz
      rcases List.mem_cons.mp hz with rfl | hz
      · omega
      · have := h.1 z hz; omega
    · rename_i hlt
      rw [List.pairwise_cons]
      refine ⟨?_, ih h.2⟩
      intro z hz
      rcases List.mem_cons.mp ((insertPara_perm p ys).subset hz) with rfl | hz
      · omega
      · exact h.1 z hz

theorem inOrder_sorted (ps : List Para) : (inOrder ps).Pairwise (fun a b => a.cbegin ≤ b.cbegin) := by
  have : ∀ (ps acc : List Para), acc.Pairwise (fun a b => a.cbegin ≤ b.cbegin) →
      (ps.foldl (fun acc p => insertPara p acc) acc).Pairwise (fun a b => a.cbegin ≤ b.cbegin) := by
    intro ps
    induction ps with
    | nil => intro acc h; exact h
    | cons p ps ih => intro acc h; exact ih _ (insertPara_sorted p acc h)
  exact this ps [] (by simp)

/-! ### Properties -/

/-- C92: a document is written out without an error exactly if none of its paragraphs has metadata in it. -/
theorem C92_written_iff (ps : List Para) (rb : Int) (re : Option Int) :
    (content ps rb re none).isSome = true ↔ ∀ p ∈ ps, anyMetadata p.items = false := by
  unfold content
  rw [paras_isSome]
  simp only [affected, List.all_eq_true]
  constructor
  · intro h p hp
    simpa using h p ((inOrder_perm ps).mem_iff.mpr hp)
  · intro h p hp
    simp [h p ((inOrder_perm ps).mem_iff.mp hp)]

/-- C92: what is written are the texts and line breaks of all paragraphs, paragraph by paragraph in the order of their begins. -/
theorem C92_all_text (ps : List Para) (rb : Int) (re : Option Int) (l : List Line)
    (h : content ps rb re none = some l) :
    ∃ qs : List Para, qs.Perm ps ∧ qs.Pairwise (fun a b => a.cbegin ≤ b.cbegin) ∧
      l.filter Line.isWord = qs.flatMap (fun p => allWords p.items) := by
  refine ⟨inOrder ps, inOrder_perm ps, inOrder_sorted ps, ?_⟩
  exact paras_words _ _ _ l h

/-- C92: the times that are written with a paragraph of a document with an end are exactly those at which both the paragraph and the document are
shown; only for a paragraph that begins at the end of the document or later it says that it is discarded. -/
theorem C92_times (p : Para) (rb e : Int) (l : List Line) (h : para (some rb) (some e) p = some l) :
    (e ≤ p.cbegin ∧ l.head? = some .discarded) ∨
    (p.cbegin < e ∧ ∃ b' e', l.head? = some (.timings b' e') ∧
      ∀ t, (b' ≤ t ∧ t < e') ↔ ((p.cbegin ≤ t ∧ ∀ c, p.cend = some c → t < c) ∧ rb ≤ t ∧ t < e)) := by
  unfold para at h
  obtain ⟨r, -, hr⟩ := Option.map_eq_some_iff.mp h
  rw [← hr]
  unfold timings
  by_cases hd : e ≤ p.cbegin
  · left
    simp [hd]
  · right
    simp only [hd, if_false]
    refine ⟨by omega, _, _, rfl, fun t => ?_⟩
    cases hc : p.cend with
    | none =>
      simp only [reduceCtorEq, false_imp_iff, implies_true, and_true]
      split <;> omega
    | some c =>
      simp only [Option.some.injEq, forall_eq']
      split <;> split <;> omega

/-- C92: up to a given end the paragraphs that begin before it are written, in the order of their begins, each with the times of `C92_times` for
the earlier one of the given end and the end of the document. -/
theorem C92_up_to (ps : List Para) (rb e : Int) (re : Option Int) (l : List Line) (h : content ps rb re (some e) = some l) :
    ∃ (qs : List Para) (ls : List (List Line)), qs.Perm (ps.filter (fun p => p.cbegin < e)) ∧ qs.Pairwise (fun a b => a.cbegin ≤ b.cbegin) ∧
      List.Forall₂ (fun p m => para (some rb) (some (min e (re.getD e))) p = some m) qs ls ∧ l = ls.flatten := by
  have hu : upToEnd (some e) re = some (min e (re.getD e)) := by
    cases re with
    | none => simp [upToEnd]
    | some r =>
      simp only [upToEnd, Option.getD_some]
      split <;> (congr 1; omega)
  have hp : ∀ (qs : List Para) (l : List Line), paras (some rb) (some (min e (re.getD e))) qs = some l →
      ∃ ls, List.Forall₂ (fun p m => para (some rb) (some (min e (re.getD e))) p = some m) qs ls ∧ l = ls.flatten := by
    intro qs
    induction qs with
    | nil => intro l h; cases h; exact ⟨[], .nil, rfl⟩
    | cons q qs ih =>
      intro l h
      rw [paras] at h
      cases hq : para (some rb) (some (min e (re.getD e))) q with
      | none => rw [hq] at h; cases h
      | some m =>
        rw [hq] at h
        obtain ⟨r, hr, rfl⟩ := Option.map_eq_some_iff.1 h
        obtain ⟨ls, h1, rfl⟩ := ih r hr
        exact ⟨m :: ls, .cons hq h1, rfl⟩
  rw [content, hu] at h
  obtain ⟨ls, h1, h2⟩ := hp _ _ h
  exact ⟨_, ls, (inOrder_perm ps).filter _, (inOrder_sorted ps).filter _, h1, h2⟩

example : content [⟨5, none, [.text "b"]⟩, ⟨0, some 9, [.text "a"]⟩, ⟨20, none, [.text "c"]⟩] 1 (some 7) (some 10) =
    some [.timings 1 7, .text "a", .timings 5 7, .text "b"] := by decide +kernel

/-- C92: for a document that is discarded nothing is written, and so nothing can fail: its end is not after its begin. -/
theorem C92_discarded_silent (ps : List Para) (rb t : Int) (re : Option Int) (h : ∀ p ∈ ps, t ≤ p.cbegin) :
    content ps rb re (some t) = some [] := by
  unfold content affected
  have : (inOrder ps).filter (fun p => decide (p.cbegin < t)) = [] := by
    rw [List.filter_eq_nil_iff]
    intro p hp
    have := h p ((inOrder_perm ps).mem_iff.mp hp)
    simp; omega
  simp only [this]
  rfl

end Verif.Print

namespace Verif.Seq

/-- No paragraph of the document has metadata in it. -/
def NoMetadata (bodies : Bodies) (d : Doc) : Prop := ∀ p ∈ bodies d, Print.anyMetadata p.items = false

theorem writable_of {bodies : Bodies} {d : Doc} (h : NoMetadata bodies d) : Writable bodies d := by
  intro rb re e
  unfold Print.content
  rw [Print.paras_isSome, List.all_eq_true]
  intro p hp
  have hm : p ∈ Print.inOrder (bodies d) := by
    unfold Print.affected at hp
    cases e with
    | none => exact hp
    | some t => exact (List.mem_filter.mp hp).1
  simp [h p ((Print.inOrder_perm _).mem_iff.mp hm)]

/-- C92: whatever documents are added in whatever order, if their paragraphs have no metadata, every call of a logging
sequence ends as that of one that does not log, and leaves it in the same state. -/
theorem C92_logging_harmless (bodies : Bodies) (cfg : Cfg) (agid : Option String) (ds : List Doc)
    (hw : ∀ d ∈ ds, WellTimed d) (hm : ∀ d ∈ ds, NoMetadata bodies d) :
    runV bodies (State.init cfg agid) ds =
      ((run (State.init cfg agid) ds).1, (run (State.init cfg agid) ds).2.map .quiet) :=
  runV_eq ds (Weak.init cfg agid) hw (by intro x hx; simp [State.init] at hx) (fun d hd => writable_of (hm d hd))

namespace C92

/-- A sequence. -/
def cfg : Cfg := ⟨"s", "media", none⟩

/-- A document of the sequence. -/
def doc (n : Nat) (b : Int) (e : Option Int) : Doc := ⟨n, "s", n, "media", none, none, b, e⟩

/-- Document 1 has metadata in its paragraph. -/
def bodies : Bodies := fun d =>
  if d.num = 1 then [⟨d.cbegin, d.cend, [.metadata, .text "a"]⟩]
  else [⟨d.cbegin, d.cend, [.text "b", .br, .span d.cbegin d.cend [.text "c"]]⟩]

/-- The hypotheses of `C92_logging_harmless` are met by a history with an insertion, a trim, an override and a discard. -/
example : (∀ d ∈ [doc 2 0 none, doc 4 30 (some 50), doc 5 10 (some 20), doc 3 40 none], WellTimed d) ∧
    (∀ d ∈ [doc 2 0 none, doc 4 30 (some 50), doc 5 10 (some 20), doc 3 40 none], NoMetadata bodies d) ∧
    (runV bodies (State.init cfg none) [doc 2 0 none, doc 4 30 (some 50), doc 5 10 (some 20), doc 3 40 none]).2 =
      [.quiet .inserted, .quiet .inserted, .quiet .inserted, .quiet .discarded] := by
  refine ⟨?_, ?_, by decide +kernel⟩
  · intro d hd
    simp only [List.mem_cons, List.not_mem_nil, or_false] at hd
    rcases hd with rfl | rfl | rfl | rfl <;> simp [WellTimed, doc]
  · intro d hd
    simp only [List.mem_cons, List.not_mem_nil, or_false] at hd
    rcases hd with rfl | rfl | rfl | rfl <;>
      simp [NoMetadata, bodies, doc, Print.anyMetadata, Print.Item.hasMetadata]

/-- A written document. -/
example : Print.content (bodies (doc 2 0 (some 9))) 0 (some 7) none =
    some [.timings 0 7, .text "b", .br, .timings 0 7, .text "c"] := by decide +kernel

/-- A paragraph from 2 to 9 in a document shown from 3 to 7. -/
example : Print.para (some 3) (some 7) ⟨2, some 9, [.text "a"]⟩ = some [.timings 3 7, .text "a"] := by decide +kernel

end C92

/-- C92 fails with metadata in a paragraph: the call raises although the document has been inserted and is shown, and the next
document is refused with the same error, while the first has been cut where the next one begins, so that neither is shown. -/
theorem C92_false_metadata :
    (runV C92.bodies (State.init C92.cfg none) [C92.doc 1 0 none]).2 = [.log .attributeError] ∧
    (runV C92.bodies (State.init C92.cfg none) [C92.doc 1 0 none]).1.docs = [C92.doc 1 0 none] ∧
    (runV C92.bodies (State.init C92.cfg none) [C92.doc 1 0 none, C92.doc 2 10 none]).2 =
      [.log .attributeError, .log .attributeError] ∧
    (runV C92.bodies (State.init C92.cfg none) [C92.doc 1 0 none, C92.doc 2 10 none]).1.docs = [C92.doc 1 0 none] ∧
    resolvedEnd (runV C92.bodies (State.init C92.cfg none) [C92.doc 1 0 none, C92.doc 2 10 none]).1 (C92.doc 1 0 none) =
      some (some 10) ∧
    (run (State.init C92.cfg none) [C92.doc 1 0 none, C92.doc 2 10 none]).2 = [.inserted, .inserted] := by
  decide +kernel

end Verif.Seq
