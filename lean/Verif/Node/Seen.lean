/-
Model of `AbstractConsumerNode.check_if_document_seen` (`/repo/ebu_tt_live/node/base.py:99-113`) and of the
buffer it keeps the numbers in, `RingBufferWithCallback` (`/repo/ebu_tt_live/utils.py:66-84`).
-/
namespace Verif.Node

/-- `collections.deque.append` with a `maxlen`: the oldest entries fall out on the left. -/
def dequeAppend {α : Type} (maxlen : Nat) (buf : List α) (x : α) : List α :=
  (buf ++ [x]).drop (buf.length + 1 - maxlen)

/-- `RingBufferWithCallback(maxlen=100)` without a callback (node/base.py:111, utils.py:80-84). -/
def window : Nat := 100

/-- `_seen_docs`: sequence identifier → numbers, oldest first. -/
abbrev Seen := List (String × List Nat)

/-- `self._seen_docs[sequence_identifier]`, the empty buffer if there is none. -/
def Seen.get : Seen → String → List Nat
  | [], _ => []
  | (k, v) :: r, sid => if k = sid then v else Seen.get r sid

/-- `self._seen_docs.setdefault(sid, RingBufferWithCallback(maxlen=100)).append(n)`. -/
def Seen.push : Seen → String → Nat → Seen
  | [], sid, n => [(sid, dequeAppend window [] n)]
  | (k, v) :: r, sid, n => if k = sid then (k, dequeAppend window v n) :: r else (k, v) :: Seen.push r sid n

/-- `check_if_document_seen` (node/base.py:99-113): the answer — `true` means the document is new — and
the buffers afterwards.  Documents always have an identifier and a number (both are required by the
schema), so the bare `Exception` of line 105 is left out. -/
def checkSeen (s : Seen) (sid : String) (n : Nat) : Bool × Seen :=
  if n ∈ s.get sid then (false, s) else (true, s.push sid n)

/-- The answers to a series of deliveries, and the buffers afterwards. -/
def answers (s : Seen) : List (String × Nat) → List Bool × Seen
  | [] => ([], s)
  | d :: ds =>
    let r := checkSeen s d.1 d.2
    let rs := answers r.2 ds
    (r.1 :: rs.1, rs.2)

theorem Seen.get_push (s : Seen) (sid : String) (n : Nat) (k : String) :
    (s.push sid n).get k = if k = sid then dequeAppend window (s.get sid) n else s.get k := by
  induction s with
  | nil =>
    by_cases h : k = sid
    · subst h; simp [Seen.push, Seen.get]
    · have : ¬ sid = k := fun e => h e.symm
      simp [Seen.push, Seen.get, h, this]
  | cons kv r ih =>
    obtain ⟨a, v⟩ := kv
    by_cases ha : a = sid
    · subst ha
      by_cases h : a = k
      · subst h; simp [Seen.push, Seen.get]
      · have : ¬ k = a := fun e => h e.symm
        simp [Seen.push, Seen.get, h, this]
    · simp only [Seen.push, if_neg ha, Seen.get]
      by_cases h : a = k
      · subst h; simp [ha]
      · simp only [if_neg h]; exact ih

/-- Induction over a history from its beginning to its latest entry. -/
theorem snoc_induction {α : Type} {P : List α → Prop} (nil : P []) (snoc : ∀ l x, P l → P (l ++ [x])) : ∀ l, P l := by
  intro l
  have : ∀ r : List α, P r.reverse := by
    intro r
    induction r with
    | nil => exact nil
    | cons x xs ih => rw [List.reverse_cons]; exact snoc _ _ ih
  simpa using this l.reverse

end Verif.Node
