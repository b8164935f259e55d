/-!
# Wrapping text into subtitles: `tokenize_english_document` (ebu_tt_live/utils.py:199-252)

The nltk tokenizers that cut the text into blocks, sentences and words (utils.py:206-208, :213, :216,
:219) are not modelled: a text is given as the list of its sentences, a sentence as the list of its
words.
-/
namespace Verif.Wrap

abbrev Text := List Char

/-- White space as `str.strip()` sees it. -/
def isBlank (c : Char) : Bool := c = ' ' || c = '\t' || c = '\n' || c = '\r' || c = '\x0b' || c = '\x0c'

/-- `str.strip()`. -/
def strip (l : Text) : Text := ((l.dropWhile isBlank).reverse.dropWhile isBlank).reverse

/-- utils.py:210. -/
abbrev charactersPerLine : Nat := 38
/-- utils.py:211. -/
abbrev linesPerSubtitle : Nat := 2

/-- The variables of the loop over a sentence: the words left (`reverse_words`, next one first),
`current_line`, `lines` and `end_list`. -/
structure State where
  words : List Text
  cur : Text
  lines : List Text
  out : List (List Text)
deriving DecidableEq

/-- utils.py:239-242: a full line is closed. -/
def close (s : State) : State := { s with lines := s.lines ++ [s.cur], cur := [] }

/-- utils.py:244-246: a full subtitle is put out. -/
def flush (s : State) : State :=
  if s.lines.length ≥ linesPerSubtitle then { s with out := s.out ++ [s.lines], lines := [] } else s

/-- One round of the loop (utils.py:225-246), `w` being the word popped and `ws` the others. -/
def step (s : State) (w : Text) (ws : List Text) : State :=
  let longer := strip (s.cur ++ ' ' :: w)
  if longer.length > charactersPerLine ∧ s.cur ≠ [] then flush (close { s with words := w :: ws })
  else if w.length ≥ charactersPerLine then flush (close { s with words := ws, cur := longer })
  else flush { s with words := ws, cur := longer }

/-- The loop, cut after `n` rounds; `none` if it has not ended by then. -/
def loop : Nat → State → Option State
  | 0, s => if s.words = [] then some s else none
  | n + 1, s =>
    match s.words with
    | [] => some s
    | w :: ws => loop n (step s w ws)

/-- After the loop (utils.py:247-250). -/
def finish (s : State) : List (List Text) :=
  let lines := if s.cur ≠ [] then s.lines ++ [s.cur] else s.lines
  if lines ≠ [] then s.out ++ [lines] else s.out

/-- All sentences of a text (utils.py:213-252), at most `n` rounds of the loop for each. -/
def tokenize (n : Nat) : List (List Text) → List (List Text) → Option (List (List Text))
  | out, [] => some out
  | out, ws :: rest =>
    match loop n ⟨ws, [], [], out⟩ with
    | none => none
    | some s => tokenize n (finish s) rest

end Verif.Wrap
