import Verif.Doc.SegmentSpec

/-! Small specification for the properties about lines: what a reader sees of each paragraph of a
validated document at a given time, with the pieces of text and the line breaks between them in their
order. -/
namespace Verif.Doc

mutual
/-- What an element shows at time `t`: nothing when it is not active, and otherwise its text and line
breaks and what the elements inside it show, in document order. -/
def readAt (t : Int) : Node Lab → List Item
  | .text s => [.text s]
  | .br => [.br]
  | .elem x kids => if x.comp.at t then readAtL t kids else []
def readAtL (t : Int) : List (Node Lab) → List Item
  | [] => []
  | k :: ks => readAt t k ++ readAtL t ks
end

/-- There is something to read: text other than white space. -/
def Words (l : List Item) : Bool :=
  l.any (fun i => match i with
    | .br => false
    | .text s => !(s.all isWs))

mutual
/-- What the paragraphs show at time `t`, in document order; those with nothing to read are left out. -/
def linesAt (t : Int) : Node Lab → List (List Item)
  | .elem x kids =>
    if x.att.kind = .p then [readAt t (.elem x kids)].filter Words else linesAtL t kids
  | _ => []
def linesAtL (t : Int) : List (Node Lab) → List (List Item)
  | [] => []
  | k :: ks => linesAt t k ++ linesAtL t ks
end

/-- Every item, or every item but the pieces of text that are only white space. -/
def keep (exact : Bool) : Item → Bool
  | .br => true
  | .text s => exact || !(s.all isWs)

/-- The paragraphs' items without the pieces of text that are only white space. -/
def wordsAt (t : Int) (n : Node Lab) : List (List Item) := (linesAt t n).map (List.filter (keep false))

mutual
/-- Paragraphs whose text is either all their own or all in spans, and spans whose content is either
all their own and shows something, or all in spans inside; line breaks and white space may stand
between the spans of a paragraph.  With `exact = false`, spans may also consist of, or contain,
nothing but white space. -/
def lined (exact : Bool) : Node Att → Bool
  | .elem a kids =>
    (match a.kind with
      | .p => !(kids.any (isSpan Att.kind)) || !(Words (items kids))
      | .span => ((items kids).filter (keep exact)).isEmpty ||
          (!(kids.any (isSpan Att.kind)) && Visible (items kids))
      | _ => true) && linedL exact kids
  | _ => true
def linedL (exact : Bool) : List (Node Att) → Bool
  | [] => true
  | k :: ks => lined exact k && linedL exact ks
end

end Verif.Doc
