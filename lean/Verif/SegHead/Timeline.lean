import Verif.Doc.SegmentSpec

/-!
# The timeline of a document

`TimelineUtilMixin` (ebu_tt_live/documents/ebutt3.py:88-150) as a document uses it for its p and span
elements (bindings/validation/timing.py:263-268). Elements are objects compared by identity: here the
position in the order in which they were added.
-/
namespace Verif.SegHead

open Verif.Doc (Comp Win)

/-- `TimingEventBegin` and `TimingEventEnd` (ebutt3.py:54-85). -/
structure Ev where
  fin : Bool
  el : Nat
  t : Int
deriving DecidableEq, Repr

/-- `SortedListWithKey.add`: after the events with the same time. -/
def insertEv (e : Ev) : List Ev → List Ev
  | [] => [e]
  | x :: xs => if e.t < x.t then e :: x :: xs else x :: insertEv e xs

/-- `add_to_timeline` (ebutt3.py:104-113) for the element number `i`. The computed begin time is never `None`. -/
def addTo (tl : List Ev) (i : Nat) (c : Comp) : List Ev :=
  match c.e with
  | none => insertEv ⟨false, i, c.b⟩ tl
  | some e => insertEv ⟨true, i, e⟩ (insertEv ⟨false, i, c.b⟩ tl)

/-- The elements added one after the other, the first as number `i`. -/
def addAll (tl : List Ev) (i : Nat) : List Comp → List Ev
  | [] => tl
  | c :: cs => addAll (addTo tl i c) (i + 1) cs

/-- The timeline after a validation, which starts from an empty one (ebutt3.py:485-486). -/
def timeline (cs : List Comp) : List Ev := addAll [] 0 cs

/-- One round of the loop of `lookup_range_on_timeline` (ebutt3.py:138-149). -/
def lookupStep (w : Win) (acc : List Nat) (e : Ev) : List Nat :=
  if e.fin then
    match w.b with
    | none => acc
    | some b => if e.t ≤ b then acc.erase e.el else acc
  else if some e.t ≠ w.e then acc ++ [e.el]
  else acc

/-- Events that `irange(maximum=…)` delivers. -/
def upTo (w : Win) (e : Ev) : Bool :=
  match w.e with
  | none => true
  | some m => decide (e.t ≤ m)

/-- `lookup_range_on_timeline` (ebutt3.py:127-150). The timeline is sorted, so its events up to the end are the
first ones. -/
def lookupRange (tl : List Ev) (w : Win) : List Nat := (tl.filter (upTo w)).foldl (lookupStep w) []

end Verif.SegHead
