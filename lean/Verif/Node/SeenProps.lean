import Verif.Node.Seen

/-
C33: a delivered document is processed exactly when its number is not among the last 100 numbers of its
sequence that were processed.
-/
namespace Verif.Node

/-- Specification: the numbers of sequence `sid` that were answered with "new", in delivery order. -/
def accepted (sid : String) : List (String × Nat) → List Bool → List Nat
  | d :: ds, a :: as => if d.1 = sid ∧ a = true then d.2 :: accepted sid ds as else accepted sid ds as
  | _, _ => []

/-- Specification: the last `k` entries of a list. -/
def lastOf {α : Type} (k : Nat) (l : List α) : List α := l.drop (l.length - k)

theorem answers_append (s : Seen) (h g : List (String × Nat)) :
    answers s (h ++ g) = ((answers s h).1 ++ (answers (answers s h).2 g).1, (answers (answers s h).2 g).2) := by
  induction h generalizing s with
  | nil => simp [answers]
  | cons d ds ih => simp [answers, ih]

theorem answers_length (s : Seen) (h : List (String × Nat)) : (answers s h).1.length = h.length := by
  induction h generalizing s with
  | nil => rfl
  | cons d ds ih => simp [answers, ih]

theorem accepted_append (sid : String) (h g : List (String × Nat)) (as bs : List Bool) (hl : as.length = h.length) :
    accepted sid (h ++ g) (as ++ bs) = accepted sid h as ++ accepted sid g bs := by
  induction h generalizing as with
  | nil => cases as with
    | nil => simp [accepted]
    | cons a as => simp at hl
  | cons d ds ih =>
    cases as with
    | nil => simp at hl
    | cons a as =>
      simp only [List.length_cons, Nat.add_right_cancel_iff] at hl
      simp only [List.cons_append, accepted, ih as hl]
      split <;> rfl

theorem lastOf_snoc {α : Type} (k : Nat) (l : List α) (x : α) :
    lastOf k (l ++ [x]) = dequeAppend k (lastOf k l) x := by
  unfold lastOf dequeAppend
  simp only [List.length_append, List.length_drop, List.length_cons, List.length_nil]
  by_cases h : l.length ≤ k
  · have e : l.length - k = 0 := by omega
    rw [e, List.drop_zero]
    congr 1
  · have e1 : l.length - (l.length - k) + 1 - k = 1 := by omega
    have e2 : l.length + 1 - k = (l.length - k) + 1 := by omega
    rw [Nat.zero_add, e1, e2, List.drop_append, List.drop_append]
    simp only [List.length_drop, List.drop_drop]
    have e3 : 1 - (l.length - (l.length - k)) = l.length - k + 1 - l.length := by omega
    rw [e3]

/-- The buffer of every sequence holds the last accepted numbers. -/
theorem buffer_is_window (h : List (String × Nat)) (sid : String) :
    (answers [] h).2.get sid = lastOf window (accepted sid h (answers [] h).1) := by
  induction h using snoc_induction with
  | nil => simp [answers, Seen.get, accepted, lastOf]
  | snoc h d ih =>
    rw [answers_append]
    simp only [answers]
    rw [accepted_append sid h [d] _ _ (answers_length [] h)]
    unfold checkSeen
    by_cases hn : d.2 ∈ (answers [] h).2.get d.1
    · simp only [if_pos hn, accepted]
      simpa using ih
    · simp only [if_neg hn, accepted, Seen.get_push]
      by_cases hs : sid = d.1
      · subst hs
        simp only [ih, and_self, if_true, lastOf_snoc]
      · have hs' : ¬ d.1 = sid := fun e => hs e.symm
        simp only [if_neg hs, hs', false_and, if_false, List.append_nil]
        exact ih

/-- **C33**  After any history of deliveries to a node, for any number of interleaved sequences, the next
document is taken as new exactly when its number is not among the last 100 numbers of its own sequence
that were taken as new. -/
theorem C33_new_iff (h : List (String × Nat)) (sid : String) (n : Nat) :
    (checkSeen (answers [] h).2 sid n).1 = true ↔ n ∉ lastOf 100 (accepted sid h (answers [] h).1) := by
  have hw : window = 100 := rfl
  rw [← hw, ← buffer_is_window]
  unfold checkSeen
  by_cases hn : n ∈ (answers [] h).2.get sid <;> simp [hn]

theorem mem_accepted {sid : String} {n : Nat} : ∀ {h : List (String × Nat)} {as : List Bool},
    n ∈ accepted sid h as → (sid, n) ∈ h
  | [], as, hm => by simp [accepted] at hm
  | d :: ds, [], hm => by simp [accepted] at hm
  | d :: ds, a :: as, hm => by
    rw [accepted] at hm
    split at hm
    · rename_i hc
      rcases List.mem_cons.mp hm with e | hm
      · have hd : d = (sid, n) := by rw [← hc.1, e]
        rw [hd]; exact List.mem_cons_self
      · exact List.mem_cons_of_mem _ (mem_accepted hm)
    · exact List.mem_cons_of_mem _ (mem_accepted hm)

/-- **C33**  The first delivery of a document is always processed, whatever was delivered before. -/
theorem C33_first_is_new (h : List (String × Nat)) (sid : String) (n : Nat) (hf : (sid, n) ∉ h) :
    (checkSeen (answers [] h).2 sid n).1 = true := by
  rw [C33_new_iff]
  intro hm
  exact hf (mem_accepted (List.mem_of_mem_drop hm))

/-- **C33**  A repeated delivery is not processed if fewer than 100 documents of the same sequence were
processed since its first delivery (`g`), however many of other sequences were. -/
theorem C33_repeat_is_not_new (h g : List (String × Nat)) (sid : String) (n : Nat)
    (hw : (accepted sid g (answers (answers [] (h ++ [(sid, n)])).2 g).1).length < 100) (hf : (sid, n) ∉ h) :
    (checkSeen (answers [] (h ++ [(sid, n)] ++ g)).2 sid n).1 = false := by
  have hnew := C33_first_is_new h sid n hf
  rw [← Bool.not_eq_true, C33_new_iff]
  intro hm
  apply hm
  rw [answers_append, accepted_append sid _ g _ _ (answers_length [] _), answers_append]
  rw [accepted_append sid h [(sid, n)] _ _ (answers_length [] h)]
  rw [answers_append] at hw
  generalize hA : accepted sid h (answers [] h).1 = A
  have hB : accepted sid [(sid, n)] (answers (answers [] h).2 [(sid, n)]).1 = [n] := by
    simp [answers, accepted, hnew]
  rw [hB]
  generalize hG : accepted sid g (answers (answers (answers [] h).2 [(sid, n)]).2 g).1 = G at hw ⊢
  unfold lastOf
  rw [List.append_assoc, List.drop_append]
  apply List.mem_append_right
  rw [List.length_append, List.singleton_append]
  have : A.length + (n :: G).length - 100 - A.length = 0 := by simp; omega
  rw [this]
  simp

/-- Deliveries of numbers 1 to `k` of sequence `"a"`. -/
def upTo (k : Nat) : List (String × Nat) := (List.range k).map (fun i => ("a", i + 1))

/-- The window is what counts: the same document delivered again after 100 further documents of its
sequence is processed a second time. -/
theorem C33_forgotten_after_window :
    (checkSeen (answers [] (upTo 101)).2 "a" 1).1 = true ∧ (checkSeen (answers [] (upTo 100)).2 "a" 1).1 = false := by
  decide +kernel

/-- Non-vacuity: two interleaved sequences with repeats. -/
example : (answers [] [("a", 1), ("b", 1), ("a", 1), ("a", 2), ("b", 1), ("a", 2), ("b", 3)]).1 =
    [true, true, false, true, false, false, true] := by decide

example : (accepted "a" [("b", 1), ("a", 7)] (answers (answers [] ([("b", 2)] ++ [("a", 5)])).2 [("b", 1), ("a", 7)]).1).length < 100 ∧
    ("a", 5) ∉ [("b", 2)] := by decide

end Verif.Node
