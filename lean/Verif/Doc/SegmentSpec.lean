import Verif.Doc.Segment

/-! Small specification for the segment properties: what a document shows and when. -/
namespace Verif.Doc

/-- An item of shown content: a piece of text or a line break. -/
inductive Item where
  | text (s : List Char)
  | br
deriving DecidableEq, Repr

/-- The text and line breaks directly inside an element, in order. -/
def items {α : Type} : List (Node α) → List Item
  | [] => []
  | .text s :: ks => .text s :: items ks
  | .br :: ks => .br :: items ks
  | .elem _ _ :: ks => items ks

/-- Is a span element. -/
def isSpan {α : Type} (kd : α → Kind) : Node α → Bool
  | .elem x _ => decide (kd x = .span)
  | _ => false

/-- A timed leaf: a p or span without spans inside. -/
def Leaf {α : Type} (kd : α → Kind) (x : α) (kids : List (Node α)) : Bool :=
  (decide (kd x = .p) || decide (kd x = .span)) && !(kids.any (isSpan kd))

/-- Content that shows something: a line break or text other than white space. -/
def Visible (l : List Item) : Bool :=
  l.any (fun i => match i with
    | .br => true
    | .text s => !(s.all isWs))

mutual
/-- The leaves that have something to show, in document order, with their content. -/
def leaves {α : Type} (kd : α → Kind) : Node α → List (α × List Item)
  | .elem x kids =>
    if Leaf kd x kids then (if Visible (items kids) then [(x, items kids)] else [])
    else leavesL kd kids
  | _ => []
def leavesL {α : Type} (kd : α → Kind) : List (Node α) → List (α × List Item)
  | [] => []
  | k :: ks => leaves kd k ++ leavesL kd ks
end

/-- The leaves of a validated document, and of a document as written. -/
def leavesOf : Node Lab → List (Lab × List Item) := leaves (fun x => x.att.kind)
def leavesAtt : Node Att → List (Att × List Item) := leaves Att.kind

/-- Active at time `t`: `b ≤ t < e`, an absent end meaning never ending. -/
def Comp.at (c : Comp) (t : Int) : Bool :=
  decide (c.b ≤ t) && (match c.e with
    | none => true
    | some e => decide (t < e))

/-- Inside the window `[b, e)`, an absent bound meaning none. -/
def Win.at (w : Win) (t : Int) : Bool :=
  (match w.b with
    | none => true
    | some b => decide (b ≤ t)) &&
  (match w.e with
    | none => true
    | some e => decide (t < e))

/-- What a validated document shows at time `t`: the content of its active leaves in document order. -/
def shownAt (n : Node Lab) (t : Int) : List (List Item) :=
  ((leavesOf n).filter (fun l => l.1.comp.at t)).map (·.2)

/-- The interval and the window overlap: the leaf begins before the window ends and ends after the
window begins. -/
def Overlaps (w : Win) (c : Comp) : Bool :=
  (match w.b, c.e with
    | some wb, some e => decide (wb < e)
    | _, _ => true) &&
  (match w.e with
    | some we => decide (c.b < we)
    | none => true)

/-- The later of the two begins, the earlier of the two ends. -/
def cutBegin (w : Win) (c : Comp) : Int :=
  match w.b with
  | none => c.b
  | some wb => max wb c.b
def cutEnd (w : Win) (c : Comp) : Option Int :=
  match w.e, c.e with
  | none, e => e
  | some we, none => some we
  | some we, some e => some (min we e)

mutual
/-- The element structure the schema enforces: divs in body and div, p in div, spans, text and line
breaks in p and span, and no empty text items. -/
def shaped : Node Att → Bool
  | .elem a kids => kids.all (fits a.kind) && shapedL kids
  | .text s => !s.isEmpty
  | .br => true
def shapedL : List (Node Att) → Bool
  | [] => true
  | k :: ks => shaped k && shapedL ks
/-- May be a child of an element of the given kind. -/
def fits (kd : Kind) : Node Att → Bool
  | .elem a _ => match kd with
    | .body => decide (a.kind = .div)
    | .div => decide (a.kind = .div) || decide (a.kind = .p)
    | _ => decide (a.kind = .span)
  | _ => decide (kd = .p) || decide (kd = .span)
end

mutual
/-- No p or span has both spans and shown content of its own. -/
def unmixed : Node Att → Bool
  | .elem _ kids => (!(kids.any (isSpan Att.kind)) || !(Visible (items kids))) && unmixedL kids
  | _ => true
def unmixedL : List (Node Att) → Bool
  | [] => true
  | k :: ks => unmixed k && unmixedL ks
end

mutual
/-- No element's end is judged to be no later than its begin. -/
def wellTimed : Node Att → Bool
  | .elem a kids => !badly a && wellTimedL kids
  | _ => true
def wellTimedL : List (Node Att) → Bool
  | [] => true
  | k :: ks => wellTimed k && wellTimedL ks
end

mutual
/-- All times are whole milliseconds. -/
def inMs : Node Att → Bool
  | .elem a kids => [a.beg, a.fin, a.dur].all (fun o => o.all (fun v => decide (v.delta % 1000 = 0))) && inMsL kids
  | _ => true
def inMsL : List (Node Att) → Bool
  | [] => true
  | k :: ks => inMs k && inMsL ks
end

mutual
/-- The identifiers in document order. -/
def idsOf {α : Type} (f : α → Option (List Char)) : Node α → List (List Char)
  | .elem x kids => (f x).toList ++ idsOfL f kids
  | _ => []
def idsOfL {α : Type} (f : α → Option (List Char)) : List (Node α) → List (List Char)
  | [] => []
  | k :: ks => idsOf f k ++ idsOfL f ks
end

end Verif.Doc
