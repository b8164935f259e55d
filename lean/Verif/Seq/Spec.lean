import Verif.Seq.Model

/-!
Specification vocabulary for the document sequence.  Nothing here refers to the timeline: the
definitions talk about documents, instants and the results of the public calls.
-/
namespace Verif.Seq

/-- A document with sensible computed times: not negative, not ending before it begins and not
ending at time zero. -/
def WellTimed (d : Doc) : Prop :=
  0 ≤ d.cbegin ∧ ∀ e, d.cend = some e → d.cbegin ≤ e ∧ 0 < e

/-- According to the public resolved times, held document `a` is active at instant `t`:
`t ∈ [resolved_begin_time, resolved_end_time)`. -/
def ActiveAt (s : State) (a : Doc) (t : Int) : Prop :=
  a ∈ s.docs ∧ ∃ b, resolvedBegin s a = some b ∧ b ≤ t ∧
    ∃ e, resolvedEnd s a = some e ∧ ∀ x, e = some x → t < x

/-- The documents of a history whose `add_document` call returned normally. -/
def accepted (ds : List Doc) (os : List Outcome) : List Doc :=
  ((ds.zip os).filter (fun p => p.2.ok)).map (·.1)

/-- Among the documents `H`, `a` has begun at `t` and no begun document is newer. -/
def Newest (H : List Doc) (t : Int) (a : Doc) : Prop :=
  a ∈ H ∧ a.cbegin ≤ t ∧ ∀ y ∈ H, y.cbegin ≤ t → y.num ≤ a.num

/-- The document's own computed end (if any) is after `t`. -/
def EndsAfter (a : Doc) (t : Int) : Prop := ∀ e, a.cend = some e → t < e

/-- The next document of the sequence: the first one with a greater number. -/
def nextDoc (docs : List Doc) (x : Doc) : Option Doc := docs.find? (fun y => decide (x.num < y.num))

/-- The earlier of two optional instants, `none` meaning never. -/
def earliest : Option Int → Option Int → Option Int
  | some a, some b => some (min a b)
  | some a, none => some a
  | none, b => b

/-- States reachable by calls of `add_document`, `new_document` and `discard_before` of a held
document, none of which failed with an internal error and no document object being added twice.
The second index lists the documents that were passed to `add_document`. -/
inductive Reach (cfg : Cfg) (agid : Option String) : State → List Doc → Prop
  | init : Reach cfg agid (State.init cfg agid) []
  | add {s log d} : Reach cfg agid s log → WellTimed d → d ∉ log →
      (addDocument s d).2.internal = false → Reach cfg agid (addDocument s d).1 (d :: log)
  | new {s log} : Reach cfg agid s log → Reach cfg agid (newDocument s).1 log
  | drop {s log d s'} : Reach cfg agid s log → d ∈ s.docs → discardBefore s d = some s' →
      Reach cfg agid s' log

end Verif.Seq
