import Verif.SegHead.Lemmas
import Verif.Doc.Reseg
import Verif.Convert.Model

/-!
# Language, white space handling, agents and roles

Model of what the segmenter, the splicer and the converter to EBU-TT-D do with the attributes `xml:lang`, `xml:space`,
`ttm:agent` and `ttm:role`.  The functions follow those of `Verif.Doc.Segment`, `Verif.Doc.Splice` and
`Verif.Convert.Model`, with the four attributes beside what is modelled there; `Verif.Mark.Lemmas` shows that they do the
same when the four attributes are forgotten.

In the schema (`/repo/ebu_tt_live/xsd/ebutt_live.xsd`) `xml:lang` and `xml:space` belong to tt, p and span, `ttm:agent`
and `ttm:role` to body, div, p and span.  Simplifications: the role of a line break and metadata elements are left out.
-/
namespace Verif.Mark

open Verif.Doc (Node Att Kind Lab Comp Win Env SErr)
open Verif.SegHead (mapN mapNL)

/-- The four attributes of an element. -/
structure Marks where
  lang : Option (List Char) := none
  space : Option (List Char) := none
  agent : Option (List Char) := none
  role : Option (List Char) := none
deriving DecidableEq, Repr

/-- The attributes that `_semantic_copy` passes on (bindings/__init__.py:686-699 p, 757-769 span, 834-845 div, 905-915
body). -/
def copyMarks (kd : Kind) (m : Marks) : Marks :=
  match kd with
  | .p | .span => { lang := m.lang, space := m.space, agent := m.agent, role := m.role }
  | .div | .body => { agent := m.agent, role := m.role }

mutual
/-- One step of the segmenter (pyxb_utils.py:120-142 with ebutt3_segmentation.py:85-127). -/
def segNode (v : Env) : Node (Lab × Marks) → Except SErr (Option (Node (Att × Marks)))
  | .text s => .ok (some (.text s))
  | .br => .ok (some .br)
  | .elem x kids =>
    if Doc.inSeg v.win x.1.comp then do
      let a ← Doc.copyAtt v x.1.att
      let ks ← segList v kids
      if Doc.isEmpty a.kind (mapNL Prod.fst ks) then
        return none
      else do
        let a ← Doc.leafTiming v x.1.comp a (mapNL Prod.fst ks)
        return some (.elem (a, copyMarks x.1.att.kind x.2) ks)
    else .ok none
/-- The children in order (pyxb_utils.py:94-118). -/
def segList (v : Env) : List (Node (Lab × Marks)) → Except SErr (List (Node (Att × Marks)))
  | [] => .ok []
  | k :: ks => do
    let k' ← segNode v k
    let ks' ← segList v ks
    return k'.toList ++ ks'
end

/-- `compute_document_segment` for the body (ebutt3_segmentation.py:162-209). -/
def segment (v : Env) (body : Node (Lab × Marks)) : Except SErr (Node (Att × Marks)) := do
  match ← segNode v body with
  | some (.elem a []) => do
    let b ← Doc.stamp v v.win.b
    let e ← Doc.stamp v v.win.e
    return .elem ({ a.1 with beg := some b, fin := some e }, a.2) []
  | some n => return n
  | none => throw .attributeError

/-- A document: `xml:lang` and `xml:space` of the tt element and the body; `α` is what the elements carry besides the
four attributes. -/
structure MDoc (α : Type) where
  lang : Option (List Char)
  space : Option (List Char)
  body : Node (α × Marks)

/-- The segment of a document: `tt_type.__copy__` (bindings/__init__.py:460-480) passes on `lang` but not `space`. -/
def segmentDoc (v : Env) (d : MDoc Lab) : Except SErr (MDoc Att) := do
  let body ← segment v d.body
  return { lang := d.lang, space := none, body := body }

mutual
/-- `_merge_deconflict_ids` (bindings/__init__.py:930-962) with `__copy__` of div, p and span (701-714, 771-783, 847-858). -/
def renameNode (ids : List Doc.Name) : Node (Att × Marks) → List Doc.Name × Node (Att × Marks)
  | .text s => (ids, .text s)
  | .br => (ids, .br)
  | .elem a kids =>
    match a.1.id with
    | none => ((renameList ids kids).1, .elem (a.1, copyMarks a.1.kind a.2) (renameList ids kids).2)
    | some x =>
      (Doc.free (renameList ids kids).1 x :: (renameList ids kids).1,
        .elem ({ a.1 with id := some (Doc.free (renameList ids kids).1 x) }, copyMarks a.1.kind a.2) (renameList ids kids).2)
/-- The content of an element. -/
def renameList (ids : List Doc.Name) : List (Node (Att × Marks)) → List Doc.Name × List (Node (Att × Marks))
  | [] => (ids, [])
  | k :: ks =>
    ((renameList (renameNode ids k).1 ks).1, (renameNode ids k).2 :: (renameList (renameNode ids k).1 ks).2)
end

/-- The content of a body. -/
def contentOf {α : Type} : Node α → List (Node α)
  | .elem _ kids => kids
  | _ => []

/-- `copy.copy(self)` with begin, dur and end removed (bindings/__init__.py:917-927, 966-969). -/
def mergedAtt : Node (Att × Marks) → Att × Marks
  | .elem a _ => ({ a.1 with beg := none, dur := none, fin := none }, copyMarks .body a.2)
  | _ => ({ kind := .body }, {})

/-- `body_type.merge` (bindings/__init__.py:964-976). -/
def mergeBody (ids : List Doc.Name) (a b : Node (Att × Marks)) : List Doc.Name × Node (Att × Marks) :=
  ((renameList (renameList ids (contentOf a)).1 (contentOf b)).1,
    .elem (mergedAtt a)
      ((renameList ids (contentOf a)).2 ++ (renameList (renameList ids (contentOf a)).1 (contentOf b)).2))

/-- A segment as the splicer sees it: the identifiers of its styles and regions, and the document. -/
structure Part where
  styles : Option (List Doc.Name)
  regions : Option (List Doc.Name)
  doc : MDoc Att

/-- One round of the loop of `_do_splice` (ebutt3_splicer.py:47-68): `tt_type.merge` (bindings/__init__.py:482-504) returns
the first tt element. -/
def mergeDoc (st : List Doc.Name × Part) (d : Part) : List Doc.Name × Part :=
  let s := Doc.mergeStyling st.1 st.2.styles d.styles
  let l := Doc.mergeLayout s.1 st.2.regions d.regions
  let b := mergeBody l.1 st.2.doc.body d.doc.body
  (b.1, ⟨s.2, l.2, { st.2.doc with body := b.2 }⟩)

/-- `EBUTT3Splicer` (ebutt3_splicer.py:20-80).  `none`: no segments, the constructor raises. -/
def splice : List Part → Option Part
  | [] => none
  | d :: ds => some (ds.foldl mergeDoc ([], d)).2

/-- The attributes that the converter passes on: `convert_body`, `convert_div`, `convert_p`, `convert_span`
(ebutt3_ebuttd.py:241-288). -/
def convMarks (kd : Kind) (m : Marks) : Marks :=
  match kd with
  | .body => { agent := m.agent, role := m.role }
  | .div => { agent := m.agent }
  | .p | .span => { lang := m.lang, space := m.space, agent := m.agent, role := m.role }

mutual
/-- `convert_element` of content (ebutt3_ebuttd.py:241-317, 352-354). -/
def conv (m : Convert.Media) : Node (Att × Marks) → Except Convert.CErr (Node (Att × Marks))
  | .text s => .ok (.text s)
  | .br => .ok .br
  | .elem a kids => do
    let ks ← convL m kids
    let a' ← Convert.convAtt m a.1
    if (mapNL Prod.fst ks).all (Convert.fitsD a.1.kind) then return .elem (a', convMarks a.1.kind a.2) ks else throw .unrecognized
/-- `convert_children` (ebutt3_ebuttd.py:322-350). -/
def convL (m : Convert.Media) : List (Node (Att × Marks)) → Except Convert.CErr (List (Node (Att × Marks)))
  | [] => .ok []
  | k :: ks => do
    let k' ← conv m k
    let ks' ← convL m ks
    return k' :: ks'
end

/-- An EBU-TT-D document: `xml:lang` and `xml:space` of its tt element, and the body, which may be missing. -/
structure DDoc where
  lang : Option (List Char)
  space : Option (List Char)
  body : Option (Node (Att × Marks))

/-- `convert_tt` and `convert_body` (ebutt3_ebuttd.py:127-143, 241-249). -/
def convert (m : Convert.Media) (d : MDoc Att) : Except Convert.CErr DDoc := do
  let body ← if Convert.hasDiv (mapN Prod.fst d.body) then (conv m d.body).map some else .ok none
  return { lang := d.lang, space := d.space, body := body }

mutual
/-- The marks of one tree on the elements of another. -/
def attach : Node Lab → Node (Att × Marks) → Node (Lab × Marks)
  | .elem x kids, .elem a ms => .elem (x, a.2) (attachL kids ms)
  | .elem x _, _ => .elem (x, {}) []
  | .text s, _ => .text s
  | .br, _ => .br
def attachL : List (Node Lab) → List (Node (Att × Marks)) → List (Node (Lab × Marks))
  | k :: ks, m :: ms => attach k m :: attachL ks ms
  | _, _ => []
end

/-- Semantic validation (`EBUTT3Document.validate`, ebutt3.py:225-262) computes the times of the elements and leaves the four
attributes as they are; `forget_attach` shows that the elements correspond. -/
def validate (avail : Int) (d : MDoc Att) : Except Doc.TErr (MDoc Lab) :=
  (Doc.validateDoc avail (mapN Prod.fst d.body)).map (fun doc => { lang := d.lang, space := d.space, body := attach doc d.body })

/-- A held document as the sequence extracts from it: `Doc.Source` gives the parameters of the extraction and `root` the
written document with its marks. -/
structure Held where
  src : Doc.Source
  root : MDoc Att

/-- `doc.extract_segment(begin, end, deconflict_ids=True)` in `try`/`except` (ebutt3.py:982-991): `none` when it raises. -/
def segmentOf (h : Held) (num : Nat) (w : Win) : Option Part :=
  match validate h.src.avail h.root with
  | .error _ => none
  | .ok doc =>
    match segmentDoc (h.src.env num w) doc with
    | .error _ => none
    | .ok seg => some ⟨h.src.styles w, h.src.regions w, seg⟩

/-- `extract_segment(begin, end)` (ebutt3.py:956-1010).  Outer `none`: it raises; `some none`: no segments. -/
def extractSegment (s : Seq.State) (src : Seq.Doc → Held) (lo hi : Option Int) : Option (Option Part) :=
  (Seq.extractWindows s lo hi).map (fun ws =>
    splice (ws.filterMap (fun w => segmentOf (src w.1) w.1.num ⟨w.2.1, w.2.2⟩)))

end Verif.Mark
