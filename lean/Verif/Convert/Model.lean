import Verif.Doc.SegmentSpec

/-
Model of the content side of the conversion to EBU-TT-D:
`/repo/ebu_tt_live/bindings/converters/ebutt3_ebuttd.py` (`_process_timing_type`, `convert_body`, `convert_div`,
`convert_p`, `convert_span`, `convert_br`, `convert_children`, `map_type`) with `MediaClock.get_media_time` and
`adjust_time` (`/repo/ebu_tt_live/clocks/media.py:27-46`) as `EBUTTDEncoder` sets them up
(`/repo/ebu_tt_live/node/encoder.py:26-27`), and the content models of `/repo/ebu_tt_live/xsd/ebutt_d.xsd:129-290`, which
PyXB enforces while the new elements are filled.

Simplifications: attributes that are only copied (space, lang, agent, role: see Verif.Mark) and metadata are left out; the head is modelled
in `Verif.Convert.Fonts` as far as font sizes go.
-/
namespace Verif.Convert

open Verif.Doc Verif.Time

/-- Exceptions of a conversion. -/
inductive CErr where
  /-- content that EBU-TT-D does not allow there (`pyxb.UnrecognizedContentError`) -/
  | unrecognized
  /-- the media time cannot be written (the pattern of `fullClockTimingType`, ebutt_datatypes.xsd:178-182) -/
  | badTime
  /-- `NotImplementedError` (ebutt3_ebuttd.py:37-38) -/
  | notImplemented
deriving DecidableEq, Repr

/-- What a conversion depends on: the document's time base (`dataset['timeBase']`, ebutt3_ebuttd.py:131), the clock time
of media time zero, and how a clock text is read back. -/
structure Media where
  base : TimeBase
  zero : Int
  rd : Reader

/-- `get_media_time` (clocks/media.py:27-28) after `adjust_time(timedelta(), media_time_zero)`. -/
def mediaTime (m : Media) (t : Int) : Int := 0 + (t - m.zero)

/-- `_process_timing_type` (ebutt3_ebuttd.py:28-38) with `FullClockTimingType` made of a timedelta
(_ebuttdt.py:314-347): its text, checked against the pattern, and the time the text stands for. -/
def mapTime (m : Media) : Option TV → Except CErr (Option TV)
  | none => .ok none
  | some v =>
    match m.base with
    | .clock =>
      match readFull m.rd (writeFull (mediaTime m v.delta)) with
      | none => .error .badTime
      | some d => .ok (some ⟨writeFull (mediaTime m v.delta), d⟩)
    | .media => .ok (some v)
    | .smpte => .error .notImplemented

/-- The content models (ebutt_d.xsd:129-290): body takes div, div takes p, p takes span, text and br, span takes text
and br. -/
def fitsD (kd : Kind) : Node Att → Bool
  | .elem a _ => match kd with
    | .body => decide (a.kind = .div)
    | .div => decide (a.kind = .p)
    | .p => decide (a.kind = .span)
    | .span => false
  | _ => decide (kd = .p) || decide (kd = .span)

/-- The attributes of the converted element (ebutt3_ebuttd.py:241-288): body keeps nothing of what is modelled here, div no times,
span no region. -/
def convAtt (m : Media) (a : Att) : Except CErr Att :=
  match a.kind with
  | .body => .ok { kind := .body }
  | .div => .ok { kind := .div, id := a.id, region := a.region, style := a.style }
  | .p => do
    let b ← mapTime m a.beg
    let e ← mapTime m a.fin
    return { kind := .p, id := a.id, beg := b, fin := e, region := a.region, style := a.style }
  | .span => do
    let b ← mapTime m a.beg
    let e ← mapTime m a.fin
    return { kind := .span, id := a.id, beg := b, fin := e, style := a.style }

mutual
/-- `convert_element` of content (ebutt3_ebuttd.py:241-317, 352-354): the children, then the element. -/
def conv (m : Media) : Node Att → Except CErr (Node Att)
  | .text s => .ok (.text s)
  | .br => .ok .br
  | .elem a kids => do
    let ks ← convL m kids
    let a' ← convAtt m a
    if ks.all (fitsD a.kind) then return .elem a' ks else throw .unrecognized
/-- `convert_children` (ebutt3_ebuttd.py:322-350): text is copied, elements are converted. -/
def convL (m : Media) : List (Node Att) → Except CErr (List (Node Att))
  | [] => .ok []
  | k :: ks => do
    let k' ← conv m k
    let ks' ← convL m ks
    return k' :: ks'
end

/-- Has a div child (`len(body_in.div) == 0`, ebutt3_ebuttd.py:242). -/
def hasDiv : Node Att → Bool
  | .elem _ kids => kids.any (fun k => match k with
    | .elem a _ => decide (a.kind = .div)
    | _ => false)
  | _ => false

/-- `convert_body` (ebutt3_ebuttd.py:241-249): a body without div is left out. -/
def convertBody (m : Media) (body : Node Att) : Except CErr (Option (Node Att)) :=
  if hasDiv body then (conv m body).map some else .ok none

end Verif.Convert
