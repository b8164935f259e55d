import Verif.Walk.Model

/-
What it means that a traversal goes through a document in order (C90).
-/
namespace Verif.Walk

/-- Which hook. -/
inductive Which where
  | before
  | process
  | after
  | other
deriving DecidableEq, Repr

/-- A call of a hook for the value at a place. -/
structure Call where
  which : Which
  at_ : Path
deriving DecidableEq, Repr

/-- How a call ended. -/
inductive Ended where
  | returned
  | stopped
  | failed
deriving DecidableEq, Repr

mutual
/-- All calls for a value and what is in it, in order: an element is begun, then processed and its content gone through (or the other way
round), then ended; what is not selected is handed to one hook and not gone into. -/
def tour {α : Type} (keep : Path → Tree α → Bool) (post : Bool) (p : Path) : Tree α → List Call
  | .node x ks =>
    if keep p (.node x ks) = true then
      ⟨.before, p⟩ :: (if post then tours keep post p 0 ks ++ [⟨.process, p⟩] else ⟨.process, p⟩ :: tours keep post p 0 ks) ++ [⟨.after, p⟩]
    else [⟨.other, p⟩]
def tours {α : Type} (keep : Path → Tree α → Bool) (post : Bool) (p : Path) (i : Nat) : List (Tree α) → List Call
  | [] => []
  | k :: ks => tour keep post (p ++ [i]) k ++ tours keep post p (i + 1) ks
end

/-- Is the call for the value at `p` or something in it? -/
def Call.under (p : Path) (c : Call) : Bool := p.isPrefixOf c.at_

/-- The calls that are made out of those planned, given how they end one after the other, and those that are still to be made then: after
a call that stops, the rest of the calls for that value and what is in it are given up; after a call that fails all are. -/
def made : List Call → List Ended → List Call × List Call
  | cs, [] => ([], cs)
  | [], _ :: _ => ([], [])
  | c :: cs, e :: es =>
    match e with
    | .returned => (c :: (made cs es).1, (made cs es).2)
    | .stopped =>
      (c :: (made (cs.filter (fun c' => !c'.under c.at_)) es).1, (made (cs.filter (fun c' => !c'.under c.at_)) es).2)
    | .failed => ([c], [])
termination_by _ es => es

/-- How an outcome looks from outside. -/
def endOf {ε β : Type} : Out ε β → Ended
  | .ok _ => .returned
  | .stop => .stopped
  | .fail _ => .failed

/-- A hook that also notes its call and how it ended. -/
def record {σ ε β : Type} (c : Call) (f : σ → Out ε β × σ) (s : σ × List (Call × Ended)) : Out ε β × (σ × List (Call × Ended)) :=
  ((f s.1).1, ((f s.1).2, s.2 ++ [(c, endOf (f s.1).1)]))

/-- Hooks that keep a list of the calls made and how they ended; otherwise they do what they did. -/
def Hooks.recorded {α σ ε β : Type} (h : Hooks α σ ε β) : Hooks α (σ × List (Call × Ended)) ε β where
  keep := h.keep
  before := fun p t => record ⟨.before, p⟩ (h.before p t)
  process := fun p t cs => record ⟨.process, p⟩ (h.process p t cs)
  after := fun p t v cs => record ⟨.after, p⟩ (h.after p t v cs)
  other := fun p t => record ⟨.other, p⟩ (h.other p t)

/-- The calls a traversal makes and how they end. -/
def calls {α σ ε β : Type} (h : Hooks α σ ε β) (post : Bool) (t : Tree α) (s : σ) : List (Call × Ended) :=
  (proceed h.recorded post t (s, [])).2.2

/-- What a call was given and gave: the results of the children it was given, the value of `_process_element` it was given (`after`) or
what it returned (`process` and `other`). -/
structure Note (β : Type) where
  call : Call
  ended : Ended
  children : List β
  value : Option β
deriving DecidableEq, Repr

def returnedValue {ε β : Type} : Out ε (Option β) → Option β
  | .ok v => v
  | _ => none

def Hooks.noted {α σ ε β : Type} (h : Hooks α σ ε β) : Hooks α (σ × List (Note β)) ε β where
  keep := h.keep
  before := fun p t s => ((h.before p t s.1).1, ((h.before p t s.1).2, s.2 ++ [⟨⟨.before, p⟩, endOf (h.before p t s.1).1, [], none⟩]))
  process := fun p t cs s => ((h.process p t cs s.1).1,
    ((h.process p t cs s.1).2, s.2 ++ [⟨⟨.process, p⟩, endOf (h.process p t cs s.1).1, cs, returnedValue (h.process p t cs s.1).1⟩]))
  after := fun p t v cs s => ((h.after p t v cs s.1).1, ((h.after p t v cs s.1).2, s.2 ++ [⟨⟨.after, p⟩, endOf (h.after p t v cs s.1).1, cs, v⟩]))
  other := fun p t s => ((h.other p t s.1).1,
    ((h.other p t s.1).2, s.2 ++ [⟨⟨.other, p⟩, endOf (h.other p t s.1).1, [], returnedValue (h.other p t s.1).1⟩]))

/-- The calls a traversal makes, what they are given and give. -/
def notes {α σ ε β : Type} (h : Hooks α σ ε β) (post : Bool) (t : Tree α) (s : σ) : List (Note β) :=
  (proceed h.noted post t (s, [])).2.2

/-- Does the call complete the value at its place? -/
def Note.completes {β : Type} (n : Note β) : Bool := n.ended == .returned && (n.call.which == .after || n.call.which == .other)

/-- Is it for a child of the value at `p`? -/
def Note.childOf {β : Type} (p : Path) (n : Note β) : Bool := !n.call.at_.isEmpty && n.call.at_.dropLast == p

/-- The results of the children of the value at `p` that were completed, those that have one. -/
def results {β : Type} (l : List (Note β)) (p : Path) : List β :=
  l.filterMap (fun n => if n.childOf p && n.completes then n.value else none)

end Verif.Walk
