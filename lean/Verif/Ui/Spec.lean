import Verif.Ui.Model

/-!
# Specification for the documents of the user input page
-/
namespace Verif.Ui

open Verif.Xml (Text X blank)

/-- A value the template can hold: without quotes, ampersands, `<`, line breaks and tabs. -/
def plainVal (v : Text) : Bool := v.all (fun c => (c == ' ' || !(blank c)) && c != '"' && c != '&' && c != '<')

/-- A text the template can hold: without `<` and ampersands. -/
def plainText (t : Text) : Bool := t.all (fun c => c != '<' && c != '&')

/-- The attribute, if its value is not empty. -/
def given (a v : Text) : List (Text × Text) := if v = [] then [] else [(a, v)]

/-- A line. -/
def isLine (l : Text) : Prop := '\r' ∉ l ∧ '\n' ∉ l

/-! ### Specification: the document for what is in the form -/

/-- A line break, and a text if there is one. -/
def brElem : X := .elem "tt:br".toList [] []
def textOf (l : Text) : List X := if l = [] then [] else [.text l]

/-- The content of the span: the lines with line breaks in between. -/
def spanKids : List Text → List X
  | [] => []
  | [l] => textOf l
  | l :: ls => textOf l ++ brElem :: spanKids ls

/-- The attributes of the document element: what was typed for the sequence and the document; what was left empty is left
out. -/
def ttAttrs (d : Data) : List (Text × Text) :=
  [("ebuttp:sequenceIdentifier".toList, d.sid), ("ebuttp:sequenceNumber".toList, Time.digs d.num), ("ttp:timeBase".toList, d.seq.timeBase)] ++
  given "ttp:clockMode".toList (d.seq.clockMode.getD []) ++
  given "ebuttp:authorsGroupIdentifier".toList (d.seq.group.getD []) ++
  given "ebuttp:authorsGroupControlToken".toList d.token ++ namespaces

/-- The times of the body. -/
def bodyAttrs (d : Data) : List (Text × Text) :=
  given "begin".toList d.beg ++ given "end".toList d.fin ++ given "dur".toList d.dur

def el (t : String) (as : List (String × String)) (ks : List X) : X := .elem t.toList (as.map fun a => (a.1.toList, a.2.toList)) ks
def ws (t : String) : X := .text t.toList

/-- The head: a style for paragraphs, one for spans, a region. -/
def headTree : X :=
  el "tt:head" [] [ws "\n    ", el "tt:metadata" [] [ws "\n      ", el "ebuttm:documentMetadata" [] [], ws "\n    "],
    ws "\n    ", el "tt:styling" []
      [ws "\n      ", el "tt:style" [("xml:id", "styleP"), ("tts:color", "rgb(255, 255, 255)"), ("ebutts:linePadding", "0.5c"),
         ("tts:fontFamily", "sansSerif")] [],
       ws "\n      ", el "tt:style" [("xml:id", "styleSpan"), ("tts:backgroundColor", "rgb(0, 0, 0)")] [], ws "\n    "],
    ws "\n    ", el "tt:layout" []
      [ws "\n      ", el "tt:region" [("xml:id", "bottomRegion"), ("tts:origin", "14.375% 60%"), ("tts:extent", "71.25% 24%"),
         ("tts:displayAlign", "after"), ("tts:writingMode", "lrtb"), ("tts:overflow", "visible")] [], ws "\n    "],
    ws "\n  "]

def divAttrs : List (Text × Text) := [("region".toList, "bottomRegion".toList)]
def pAttrs : List (Text × Text) := [("xml:id".toList, "p1".toList), ("style".toList, "styleP".toList)]
def spanAttrs : List (Text × Text) := [("style".toList, "styleSpan".toList)]

/-- The document. -/
def docTree (d : Data) (lines : List Text) : X :=
  .elem "tt:tt".toList (ttAttrs d)
    [ws "\n  ", headTree, ws "\n  ",
     .elem "tt:body".toList (bodyAttrs d)
       [ws "\n    ",
        .elem "tt:div".toList divAttrs
          [ws "\n      ", .elem "tt:p".toList pAttrs [.elem "tt:span".toList spanAttrs (spanKids lines)], ws "\n    "],
        ws "\n  "],
     ws "\n"]

/-- What was typed into the form has no characters that are markup. -/
def plainForm (d : Data) : Bool :=
  plainVal d.sid && plainVal d.seq.timeBase && plainVal (d.seq.clockMode.getD []) && plainVal (d.seq.group.getD []) && plainVal d.token &&
  plainVal d.beg && plainVal d.fin && plainVal d.dur

end Verif.Ui
