import Verif.Walk.Model
import Verif.Ids.Model
import Verif.Doc.Segment
import Verif.Node.Retime

/-
The operations of the toolkit as hooks for the traversal (C90): retiming's search for a leaf without times, identifiers, timing validation and
segmentation.  Their models elsewhere are written as recursive functions.
-/
namespace Verif.Walk

open Verif.Doc (Node Att Lab Comp)

/-- What an item of the content is. -/
inductive Item (α : Type) where
  | text (s : List Char)
  | br
  | elem (x : α)
deriving Repr

mutual
/-- The content as the traversal sees it. -/
def ofNode {α : Type} : Node α → Tree (Item α)
  | .text s => .node (.text s) []
  | .br => .node .br []
  | .elem x kids => .node (.elem x) (ofNodes kids)
def ofNodes {α : Type} : List (Node α) → List (Tree (Item α))
  | [] => []
  | k :: ks => ofNode k :: ofNodes ks
end

def Item.isElem {α : Type} : Item α → Bool
  | .elem _ => true
  | _ => false

/-! ### `UntimedPathFinder` -/

def Item.isSpan : Item Att → Bool
  | .elem a => decide (a.kind = .span)
  | _ => false

/-- `is_timed_leaf` (bindings/__init__.py:733-737, 800-804; validation/timing.py:288-289). -/
def leafHere (t : Tree (Item Att)) : Bool :=
  match t.val with
  | .elem a => (decide (a.kind = .p) || decide (a.kind = .span)) && !(t.kids.any (fun k => k.val.isSpan))
  | _ => false

/-- `_path_found` and `_timed_element_stack` (delay.py:179-180), the top first. -/
structure Finder where
  found : Bool
  stack : List Att

/-- The hooks of `UntimedPathFinder` (delay.py:182-211).  The exception is `pop()` of an empty list. -/
def finder : Hooks (Item Att) Finder Unit Unit where
  keep := fun _ t => t.val.isElem
  before := fun _ t s =>
    if s.found then (.stop, s)
    else match t.val with
      | .elem a => if a.beg.isSome then (.ok (), { s with stack := a :: s.stack }) else (.ok (), s)
      | _ => (.ok (), s)
  process := fun _ t _ s => if leafHere t && s.stack.isEmpty then (.stop, { s with found := true }) else (.ok none, s)
  after := fun _ t _ _ s =>
    match t.val with
    | .elem a =>
      if a.beg.isSome then
        match s.stack with
        | [] => (.fail (), s)
        | _ :: st => (.ok (), { s with stack := st })
      else (.ok (), s)
    | _ => (.ok (), s)
  other := fun _ _ s => (.ok none, s)

/-- `has_a_leaf_with_no_timing_path` (delay.py:218-228): `none` if an exception gets out. -/
def findsUntimed (body : Node Att) : Option Bool :=
  match proceed finder false (ofNode body) ⟨false, []⟩ with
  | (.ok _, s) => some s.found
  | _ => none

/-! ### Identifiers -/

mutual
def ofTree : Ids.Tree → Tree Ids.Obj
  | .node o ks => .node o (ofTrees ks)
def ofTrees : List Ids.Tree → List (Tree Ids.Obj)
  | [] => []
  | k :: ks => ofTree k :: ofTrees ks
end

/-- The hooks of `SemanticValidator` (validation/validator.py:24-35) with `_semantic_register_id` (validation/base.py:213-222). -/
def registrar : Hooks Ids.Obj Ids.Dict Unit Unit where
  keep := fun _ _ => true
  before := fun _ t d => if (Ids.register d t.val).1 then (.ok (), (Ids.register d t.val).2) else (.fail (), (Ids.register d t.val).2)
  process := fun _ _ _ d => (.ok none, d)
  after := fun _ _ _ _ d => (.ok (), d)
  other := fun _ _ d => (.ok none, d)

/-! ### Timing -/

/-- The data set, and `_computed_begin_time` and `_computed_end_time` of each element. -/
structure Clocked where
  ctx : Doc.Ctx
  comp : Path → Option Comp

def setAt {α : Type} (f : Path → Option α) (p : Path) (x : α) : Path → Option α := fun q => if q = p then some x else f q

/-- The children with the times they have now. -/
def kidsNow (f : Path → Option Comp) (p : Path) : Nat → List (Tree (Item Att)) → List (Node Lab)
  | _, [] => []
  | i, k :: ks =>
    (match k.val, f (p ++ [i]) with
      | .elem a, some c => [Node.elem ⟨a, c⟩ []]
      | _, _ => []) ++ kidsNow f p (i + 1) ks

/-- The hooks of `SemanticValidator` with those of `TimingValidationMixin` (validation/timing.py:108-229). -/
def timer : Hooks (Item Att) Clocked Doc.TErr Unit where
  keep := fun _ t => t.val.isElem
  before := fun p t s =>
    match t.val with
    | .elem a => (.ok (), ⟨(Doc.pre s.ctx a).1, setAt s.comp p ⟨(Doc.pre s.ctx a).2.1, (Doc.pre s.ctx a).2.2⟩⟩)
    | _ => (.ok (), s)
  process := fun _ _ _ s => (.ok none, s)
  after := fun p t _ _ s =>
    match t.val, s.comp p with
    | .elem a, some c =>
      match Doc.post s.ctx a c.b c.e (kidsNow s.comp p 0 t.kids) with
      | .ok r => (.ok (), ⟨r.1, setAt s.comp p r.2⟩)
      | .error e => (.fail e, s)
    | _, _ => (.ok (), s)
  other := fun _ _ s => (.ok none, s)

/-! ### Segmentation -/

/-- `instance_mapping`: the copy of each element, with what was linked to it so far; and `_segment`. -/
structure Copies where
  copy : Path → Option (Att × List (Node Att))
  root : Option (Node Att)

/-- `_do_link_copy_with_copied_parent` (validation/base.py), `parent.append` (ebutt3_segmentation.py:130-132) and `self._segment = celem`
(line 125): `none` is the `KeyError` for a parent that was not copied. -/
def link (s : Copies) (p : Path) (n : Node Att) : Option Copies :=
  match p with
  | [] => some { s with root := some n }
  | _ =>
    match s.copy p.dropLast with
    | some (a, ks) => some { s with copy := setAt s.copy p.dropLast (a, ks ++ [n]) }
    | none => none

def linked (s : Copies) (p : Path) (n : Node Att) : Out Doc.SErr Unit × Copies :=
  match link s p n with
  | some s' => (.ok (), s')
  | none => (.fail .keyError, s)

/-- The hooks of `EBUTT3Segmenter` (ebutt3_segmentation.py:88-132) with those of body, div, p and span (bindings/__init__.py:730-731, 739-745,
797-798, 806-812, 874-875, 990-997). -/
def cutter (v : Doc.Env) : Hooks (Item Lab) Copies Doc.SErr Unit where
  keep := fun _ t => match t.val with
    | .text _ => false
    | _ => true
  before := fun _ t s =>
    match t.val with
    | .elem x => if Doc.inSeg v.win x.comp then (.ok (), s) else (.stop, s)
    | _ => (.ok (), s)
  process := fun p t _ s =>
    match t.val with
    | .elem x =>
      match Doc.copyAtt v x.att with
      | .ok a => (.ok none, { s with copy := setAt s.copy p (a, []) })
      | .error e => (.fail e, s)
    | _ => (.ok none, s)
  after := fun p t _ _ s =>
    match t.val with
    | .elem x =>
      match s.copy p with
      | none => (.fail .keyError, s)
      | some (a, ks) =>
        if Doc.isEmpty a.kind ks then (.ok (), s)
        else match Doc.leafTiming v x.comp a ks with
          | .ok a => linked { s with copy := setAt s.copy p (a, ks) } p (.elem a ks)
          | .error e => (.fail e, s)
    | .br => linked s p .br
    | _ => (.ok (), s)
  other := fun p t s =>
    match t.val with
    | .text c =>
      match linked s p (.text c) with
      | (.ok _, s) => (.ok none, s)
      | (.stop, s) => (.stop, s)
      | (.fail e, s) => (.fail e, s)
    | _ => (.ok none, s)

end Verif.Walk
