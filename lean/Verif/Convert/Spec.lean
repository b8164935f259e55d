import Verif.Convert.Model

/-! Small specification for the conversion: what a document in which times are written on the elements shows. -/
namespace Verif.Convert

open Verif.Doc Verif.Time

mutual
/-- All texts and line breaks in document order. -/
def allItems : Node Att → List Item
  | .text s => [.text s]
  | .br => [.br]
  | .elem _ kids => allItemsL kids
def allItemsL : List (Node Att) → List Item
  | [] => []
  | k :: ks => allItems k ++ allItemsL ks
end

mutual
/-- The leaves that have something to show, each with the elements around it from the outside in, itself included. -/
def pathLeaves : Node Att → List (List Att × List Item)
  | .elem a kids =>
    if Leaf Att.kind a kids then (if Visible (items kids) then [([a], items kids)] else [])
    else (pathLeavesL kids).map (fun l => (a :: l.1, l.2))
  | _ => []
def pathLeavesL : List (Node Att) → List (List Att × List Item)
  | [] => []
  | k :: ks => pathLeaves k ++ pathLeavesL ks
end

/-- On at time `t`, which counts from the begin of whatever is around the first element: every element has begun and
not ended; begin and end count from the begin of the surrounding element. -/
def on : Int → List Att → Bool
  | _, [] => true
  | t, a :: p =>
    decide ((a.beg.map TV.delta).getD 0 ≤ t) && a.fin.all (fun e => decide (t < e.delta)) &&
    on (t - (a.beg.map TV.delta).getD 0) p

/-- What a document shows at time `t`, from the times written in it. -/
def writtenAt (n : Node Att) (t : Int) : List (List Item) := ((pathLeaves n).filter (fun l => on t l.1)).map (·.2)

/-- No times written. -/
def untimed (a : Att) : Bool := a.beg.isNone && a.fin.isNone && a.dur.isNone

mutual
/-- Only p and span have times. -/
def containersUntimed : Node Att → Bool
  | .elem a kids => (decide (a.kind = .p) || decide (a.kind = .span) || untimed a) && containersUntimedL kids
  | _ => true
def containersUntimedL : List (Node Att) → Bool
  | [] => true
  | k :: ks => containersUntimed k && containersUntimedL ks
end

mutual
/-- No times written anywhere inside. -/
def untimedIn : Node Att → Bool
  | .elem a kids => untimed a && untimedInL kids
  | _ => true
def untimedInL : List (Node Att) → Bool
  | [] => true
  | k :: ks => untimedIn k && untimedInL ks
end

mutual
/-- Inside an element with a begin nothing is timed. -/
def beginsOnce : Node Att → Bool
  | .elem a kids => (a.beg.isNone || untimedInL kids) && beginsOnceL kids
  | _ => true
def beginsOnceL : List (Node Att) → Bool
  | [] => true
  | k :: ks => beginsOnce k && beginsOnceL ks
end

mutual
/-- Begins are not negative and no end is zero. -/
def plainTimes : Node Att → Bool
  | .elem a kids => a.beg.all (fun v => decide (0 ≤ v.delta)) && a.fin.all (fun v => decide (v.delta ≠ 0)) && plainTimesL kids
  | _ => true
def plainTimesL : List (Node Att) → Bool
  | [] => true
  | k :: ks => plainTimes k && plainTimesL ks
end

/-- A time can be converted. -/
def timeFits (m : Media) : Option TV → Bool
  | none => true
  | some v => match m.base with
    | .clock => decide (m.zero ≤ v.delta)
    | .media => true
    | .smpte => false

mutual
/-- What can be converted: no div in a div, no span in a span, and on p and span only times from media time zero on. -/
def convertible (m : Media) : Node Att → Bool
  | .elem a kids =>
    kids.all (fitsD a.kind) &&
    (decide (a.kind = .body) || decide (a.kind = .div) || (timeFits m a.beg && timeFits m a.fin)) && convertibleL m kids
  | _ => true
def convertibleL (m : Media) : List (Node Att) → Bool
  | [] => true
  | k :: ks => convertible m k && convertibleL m ks
end

/-- Document time minus media time. -/
def Media.shift (m : Media) : Int :=
  match m.base with
  | .clock => m.zero
  | _ => 0

end Verif.Convert
