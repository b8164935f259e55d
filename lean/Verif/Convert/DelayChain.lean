import Verif.Node.DelayedSeq
import Verif.Doc.Reseg

/-! A retiming delay node, and behind it a resequencer with its timer and the EBU-TT-D encoder. -/
namespace Verif.Convert

open Verif.Doc Verif.Node

/-- A document on its way to the delay node with what segments of it are made from besides its body: how times are read, and the references
and the copied styles and regions for a window.  `avail` is when it is delivered: the node hands on while it is called
(delay.py:78-79, carriage/direct.py:16-17), and gives it no availability time. -/
structure Carried extends Delivery where
  rd : Time.Reader
  ref : Win → Name → Option Name
  styles : Win → Option (List Name)
  regions : Win → Option (List Name)

/-- What happens to the chain: a document or a message is delivered to the delay node, or the resequencer's timer runs out. -/
inductive DEv where
  | deliver (x : Carried)
  | msg (m : String)
  | tick

/-- What the delay node made of the document, as the resequencer receives it (consumer.py:39-40): it has no availability time, and its
computed times are those of its body (documents/ebutt3.py:509-510). -/
def sentAs (x : Carried) (o : TDoc) : CDoc :=
  ⟨heldAs x.toDelivery o x.avail, none, fun a => ((heldAs x.toDelivery o a).cbegin, (heldAs x.toDelivery o a).cend)⟩

/-- What the resequencer sees: what the delay node emits, into its `process_document` (delay.py:33-79).  A delivery that raises in the delay
node raises at its sender and reaches nobody; a document seen before reaches nobody. -/
def behindDelay (rd : Time.Reader) (out : String) (d : Int) (s : TState) : List DEv → List REv
  | [] => []
  | .tick :: es => .tick :: behindDelay rd out d s es
  | .msg m :: es =>
    match retimeNode rd out d s (.msg m) with
    | (s', .emitted _) => .deliver 0 none :: behindDelay rd out d s' es
    | (s', _) => behindDelay rd out d s' es
  | .deliver x :: es =>
    match retimeNode rd out d s (.doc x.doc) with
    | (s', .emitted (.doc o)) => .deliver x.avail (some (sentAs x o)) :: behindDelay rd out d s' es
    | (s', .emitted (.msg _)) => .deliver 0 none :: behindDelay rd out d s' es
    | (s', _) => behindDelay rd out d s' es

/-- The same chain without the delay node: everything comes to the resequencer the delay earlier, but not before time zero. -/
def without (d : Int) : List DEv → List REv
  | [] => []
  | .tick :: es => .tick :: without d es
  | .msg _ :: es => .deliver 0 none :: without d es
  | .deliver x :: es => .deliver (x.before d) (some (sentAs x x.doc)) :: without d es

/-- What segments are made of from a document with body `body` got at `avail`. -/
def Carried.source (x : Carried) (body : Node Att) (avail : Int) : Source :=
  { root := body, avail := avail, base := x.doc.base, rd := x.rd, ref := x.ref, styles := x.styles, regions := x.regions }

/-- The body the delay node gives the document (delay.py:63-67). -/
def Carried.later (rd : Time.Reader) (d : Int) (x : Carried) : Node Att := (retimeDoc x.doc.base rd d x.doc.body).getD x.doc.body

/-- What belongs to a held document, found by its number among the documents of the sequence; `f` gives the body and the availability time.
The default stands for a number there is no document of. -/
def sourceOf (f : Carried → Source) (xs : List Carried) (a : Seq.Doc) : Source :=
  match xs.find? (fun x => x.doc.num == a.num) with
  | some x => f x
  | none => { root := .elem { kind := .body } [], avail := 0, base := .media, rd := Time.exactReader, ref := fun _ n => some n
              styles := fun _ => none, regions := fun _ => none }

end Verif.Convert
