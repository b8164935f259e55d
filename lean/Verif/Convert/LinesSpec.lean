import Verif.Doc.LinesProps
import Verif.Convert.Chain

/-! Small specification for lines after conversion: what is read of each paragraph of an EBU-TT-D document at a media time. -/
namespace Verif.Convert

open Verif.Doc Verif.Time

/-- The begin written on an element, zero if there is none. -/
def begun (a : Att) : Int := (a.beg.map TV.delta).getD 0

/-- The element has begun and has not ended at `u`, which counts from the begin of the surrounding element. -/
def runs (u : Int) (a : Att) : Bool := decide (begun a ≤ u) && a.fin.all (fun e => decide (u < e.delta))

mutual
/-- What an element shows at `u`, from the times written: its text and line breaks and what the elements inside it show, in
document order. -/
def readWritten (u : Int) : Node Att → List Item
  | .text s => [.text s]
  | .br => [.br]
  | .elem a kids => if runs u a then readWrittenL (u - begun a) kids else []
def readWrittenL (u : Int) : List (Node Att) → List Item
  | [] => []
  | k :: ks => readWritten u k ++ readWrittenL u ks
end

mutual
/-- What the paragraphs show at `u`, in document order; those with nothing to read are left out. -/
def linesWritten (u : Int) : Node Att → List (List Item)
  | .elem a kids =>
    if a.kind = .p then [readWritten u (.elem a kids)].filter Words
    else if runs u a then linesWrittenL (u - begun a) kids else []
  | _ => []
def linesWrittenL (u : Int) : List (Node Att) → List (List Item)
  | [] => []
  | k :: ks => linesWritten u k ++ linesWrittenL u ks
end

/-- What is read of an EBU-TT-D document at a media time; nothing without a body. -/
def linesPlayed (o : Option (Node Att)) (u : Int) : List (List Item) := o.elim [] (fun n => linesWritten u n)

end Verif.Convert
