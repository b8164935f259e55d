import Verif.Node.Handover
import Verif.Node.Simple

/-! Several producers, a handover node, and behind it a resequencer with its timer and the EBU-TT-D encoder. -/
namespace Verif.Convert

open Verif.Doc Verif.Node

/-- What a document brings besides what the handover node looks at: when it is delivered, its availability time if it has one already
(consumer.py:39-40), and what the resequencer extracts segments from.  The availability time inside `source` is not used. -/
structure Arriving where
  now : Int
  avail : Option Int
  source : Source

/-- The computed begin and end of a body with availability time `a` (documents/ebutt3.py:509-510): those of its body element.  The default
stands for a document that is not valid. -/
def bodyTimes (src : Source) (a : Int) : Int × Option Int :=
  match validateDoc a src.root with
  | .ok (.elem x _) => (x.comp.b, x.comp.e)
  | _ => (0, none)

/-- The document as a consumer receives it.  The handover node gives on the very object it was given (handover.py:79-90). -/
def toC (d : NDoc Arriving) : CDoc := ⟨d.toDoc, d.content.avail, bodyTimes d.content.source⟩

/-- What happens to the chain: something is delivered to the handover node, or the resequencer's timer runs out. -/
inductive HEv where
  | deliver (i : In Arriving)
  | tick

/-- What the resequencer sees: the handover node emits into its `process_document` while its own `process_document` runs
(handover.py:87-97, carriage/direct.py:16-17).  A delivery that raises in the handover node raises at its producer and reaches nobody. -/
def behind (hcfg : HCfg) (s : HState) : List HEv → List REv
  | [] => []
  | .tick :: es => .tick :: behind hcfg s es
  | .deliver i :: es =>
    match handover hcfg s i with
    | (s', .ok (some (.doc d))) => .deliver d.content.now (some (toC d)) :: behind hcfg s' es
    | (s', .ok (some (.msg _))) => .deliver 0 none :: behind hcfg s' es
    | (s', .ok none) => behind hcfg s' es
    | (s', .error _) => behind hcfg s' es

end Verif.Convert
