import Verif.Doc.SegmentSpec

/-
Model of the splicer: `/repo/ebu_tt_live/documents/ebutt3_splicer.py` (`EBUTT3Splicer`) and the `merge`
methods of `body_type`, `styling` and `layout` in `/repo/ebu_tt_live/bindings/__init__.py`.

Simplifications: of the styles and regions in the head only the identifiers are kept (the rest of a
style or region is copied unchanged); `tt_type.merge` and `head_type.merge` return the first document's
element and are left out.  Python's `set` of identifiers is a list; adding `None` to it has no effect on
the tests made, because only identifiers that are present are looked up.
-/
namespace Verif.Doc

/-- An identifier. -/
abbrev Name := List Char

/-- `'{}.1'.format(id)` (bindings/__init__.py:954, 1016, 1097). -/
def dotOne (x : Name) : Name := x ++ ".1".toList

/-- The loop `while next_try in ids` (bindings/__init__.py:952-954).  The fuel bounds the number of
rounds; `free_spec` shows that the fuel given by `free` never runs out. -/
def tryNames (ids : List Name) : Nat → Name → Name
  | 0, x => x
  | f + 1, x => if ids.contains x then tryNames ids f (dotOne x) else x

/-- The new identifier of a copied element (bindings/__init__.py:950-956). -/
def free (ids : List Name) (x : Name) : Name :=
  tryNames ids ((ids.map List.length).sum + 1) x

mutual
/-- `_merge_deconflict_ids` (bindings/__init__.py:930-962) on one content item: the children are
treated before the element's own identifier.  Returns the enlarged set of identifiers and the copy. -/
def renameNode (ids : List Name) : Node Att → List Name × Node Att
  | .text s => (ids, .text s)
  | .br => (ids, .br)
  | .elem a kids =>
    match a.id with
    | none => ((renameList ids kids).1, .elem a (renameList ids kids).2)
    | some x =>
      (free (renameList ids kids).1 x :: (renameList ids kids).1,
        .elem { a with id := some (free (renameList ids kids).1 x) } (renameList ids kids).2)
/-- `_merge_deconflict_ids` on the content of an element. -/
def renameList (ids : List Name) : List (Node Att) → List Name × List (Node Att)
  | [] => (ids, [])
  | k :: ks =>
    ((renameList (renameNode ids k).1 ks).1, (renameNode ids k).2 :: (renameList (renameNode ids k).1 ks).2)
end

/-- The content of a body. -/
def contentOf : Node Att → List (Node Att)
  | .elem _ kids => kids
  | _ => []

/-- `copy.copy(self)` with begin, dur and end removed (bindings/__init__.py:917-927, 966-969). -/
def mergedAtt : Node Att → Att
  | .elem a _ => { a with beg := none, dur := none, fin := none }
  | _ => { kind := .body }

/-- `body_type.merge` (bindings/__init__.py:964-976). -/
def mergeBody (ids : List Name) (a b : Node Att) : List Name × Node Att :=
  ((renameList (renameList ids (contentOf a)).1 (contentOf b)).1,
    .elem (mergedAtt a)
      ((renameList ids (contentOf a)).2 ++ (renameList (renameList ids (contentOf a)).1 (contentOf b)).2))

/-- `styling.merge` (bindings/__init__.py:1008-1019) and the branch of `_do_splice` for a document
without styling (ebutt3_splicer.py:54-57). -/
def mergeStyling (ids : List Name) : Option (List Name) → Option (List Name) → List Name × Option (List Name)
  | none, b => (ids, b)
  | some a, b => (a ++ ids, some (a ++ (b.getD []).map (fun x => if (a ++ ids).contains x then dotOne x else x)))

/-- The loop over the other document's regions (bindings/__init__.py:1094-1099). -/
def renameRegions (ids : List Name) : List Name → List Name × List Name
  | [] => (ids, [])
  | x :: xs =>
    if ids.contains x then ((renameRegions (dotOne x :: ids) xs).1, dotOne x :: (renameRegions (dotOne x :: ids) xs).2)
    else ((renameRegions ids xs).1, x :: (renameRegions ids xs).2)

/-- `layout.merge` (bindings/__init__.py:1089-1100) and ebutt3_splicer.py:58-61. -/
def mergeLayout (ids : List Name) : Option (List Name) → Option (List Name) → List Name × Option (List Name)
  | none, b => (ids, b)
  | some a, b => ((renameRegions (a ++ ids) (b.getD [])).1, some (a ++ (renameRegions (a ++ ids) (b.getD [])).2))

/-- A document as the splicer sees it. -/
structure SDoc where
  /-- identifiers of the styles; `none` when `head.styling` is absent -/
  styles : Option (List Name)
  /-- identifiers of the regions; `none` when `head.layout` is absent -/
  regions : Option (List Name)
  body : Node Att

/-- One round of the loop of `_do_splice` (ebutt3_splicer.py:47-68). -/
def mergeDoc (st : List Name × SDoc) (d : SDoc) : List Name × SDoc :=
  let s := mergeStyling st.1 st.2.styles d.styles
  let l := mergeLayout s.1 st.2.regions d.regions
  let b := mergeBody l.1 st.2.body d.body
  (b.1, ⟨s.2, l.2, b.2⟩)

/-- `EBUTT3Splicer` (ebutt3_splicer.py:20-80).  `none`: no segments, the constructor raises. -/
def splice : List SDoc → Option SDoc
  | [] => none
  | d :: ds => some (ds.foldl mergeDoc ([], d)).2

end Verif.Doc
