import Verif.Style.ComputeProps
import Verif.Doc.Segment

/-
Model of the presentation part of semantic validation: `_semantic_set_region`, `_semantic_unset_region`,
`_semantic_collect_applicable_styles`, `_semantic_push_styles` and `_semantic_pop_styles`
(`/repo/ebu_tt_live/bindings/validation/presentation.py`) as called by the hooks of region, body, div, p and
span (`/repo/ebu_tt_live/bindings/__init__.py:716-728, 785-795, 860-872, 978-988, 1059-1073`) in the depth first
traversal of `SemanticValidator` (`/repo/ebu_tt_live/bindings/validation/validator.py`).

Simplification: the results remembered by style objects are not threaded through; `C29_history_independent`
shows that they make no difference to a successful validation.
-/
namespace Verif.Style

open Verif.Doc (Node Att Kind Reach)

/-- A region definition: identifier, referenced styles, and the padding attribute, the only style
attribute a region has itself (bindings/__init__.py:1068-1073). -/
structure RegionDef where
  id : Name
  refs : List Name
  padding : Option Val := none

/-- The head of a document. -/
structure Head where
  sheet : Sheet
  own : Name → Specified
  regions : List RegionDef
  geo : Geometry

/-- Errors of the presentation pass. -/
inductive PErr where
  | style (e : Err)
  /-- `ERR_SEMANTIC_REGION_MISSING` (presentation.py:182-185) -/
  | region (id : Name)
deriving DecidableEq, Repr

/-- A validated region: `validated_styles`, `specified_style` and `computed_style`. -/
structure RInfo where
  id : Name
  styles : List Name
  spec : Specified
  comp : Computed

/-- A validated element: its attributes, `inherited_region`, the styles it refers to, `validated_styles`,
`specified_style` and `computed_style`. -/
structure PLab where
  att : Att
  region : Option RInfo
  referenced : List Name
  validated : List Name
  spec : Specified
  comp : Computed

/-- The referenced styles of an element (presentation.py:66-75). -/
def refStyles (hd : Head) (refs : List Name) : Except PErr (List Name) :=
  match (collect hd.sheet [] refs).1 with
  | .ok l => .ok l
  | .error e => .error (.style e)

/-- Validation of a region (bindings/__init__.py:1059-1073): its own padding goes before the referenced
styles; no styles are stacked and no region is in force. -/
def presentRegion (hd : Head) (r : RegionDef) : Except PErr RInfo := do
  let l ← refStyles hd r.refs
  let spec := add (add {} { simple := fun x => match x with | .padding => r.padding | _ => none }) (resolve hd.own l)
  return { id := r.id, styles := l, spec := spec, comp := regionStyle hd.geo spec }

/-- The layout, region by region. -/
def presentRegions (hd : Head) : List RegionDef → Except PErr (List RInfo)
  | [] => .ok []
  | r :: rs => do
    let i ← presentRegion hd r
    let is ← presentRegions hd rs
    return i :: is

/-- The part of the dataset the pass uses: `styles_stack`, the last pushed last, and `region`. -/
structure Ctx where
  stack : List (List Name)
  region : Option RInfo

/-- `_semantic_set_region` (presentation.py:176-185); only div and p have one. -/
def setRegion (infos : List RInfo) (a : Att) (cur : Option RInfo) : Except PErr (Option RInfo) :=
  match (if Doc.hasRegion a.kind then a.region else none) with
  | none => .ok cur
  | some r =>
    match infos.find? (fun i => decide (i.id = r)) with
    | none => .error (.region r)
    | some i => .ok (some i)

/-- The styles of the stack that the element does not refer to itself, each once (presentation.py:79-83). -/
def inheritedStyles (referenced : List Name) (stack : List (List Name)) : List Name :=
  stack.flatten.foldl (fun acc x => if x ∈ referenced ∨ x ∈ acc then acc else acc ++ [x]) []

/-- `_validated_styles` (presentation.py:85-97). -/
def validatedStyles (referenced : List Name) (stack : List (List Name)) (region : Option RInfo) : List Name :=
  let inh := inheritedStyles referenced stack
  referenced ++ inh ++ ((region.map (·.styles)).getD []).filter (fun x => decide (x ∉ referenced) && decide (x ∉ inh))

/-- The font size may stay relative (bindings/__init__.py:865-867, 981-983). -/
def defers : Kind → Bool
  | .body => true
  | .div => true
  | _ => false

/-- `_semantic_collect_applicable_styles` (presentation.py:43-120). -/
def label (hd : Head) (a : Att) (stack : List (List Name)) (region : Option RInfo) (parent : Option Computed)
    (referenced : List Name) : PLab :=
  let spec := resolve hd.own referenced
  { att := a, region := region, referenced := referenced, validated := validatedStyles referenced stack region,
    spec := spec, comp := compute hd.geo spec parent (region.map (·.comp)) (defers a.kind) }

/-- The hooks after the children: `_semantic_unset_region` for div and p (presentation.py:187-189),
`_semantic_pop_styles` for body, p and span — a div does not pop (bindings/__init__.py:724-728, 792-795,
870-872, 986-988). -/
def leave (a : Att) (c : Ctx) : Ctx where
  stack := match a.kind with
    | .div => c.stack
    | _ => c.stack.dropLast
  region := if Doc.hasRegion a.kind && a.region.isSome then none else c.region

mutual
/-- One element with its content.  The result carries the dataset the next sibling sees. -/
def present (hd : Head) (infos : List RInfo) (c : Ctx) (parent : Option Computed) : Node Att → Except PErr (Ctx × Node PLab)
  | .text s => .ok (c, .text s)
  | .br => .ok (c, .br)
  | .elem a kids => do
    let rg ← setRegion infos a c.region
    let refd ← refStyles hd a.style
    let x := label hd a c.stack rg parent refd
    let r ← presentL hd infos ⟨c.stack ++ [refd], rg⟩ (some x.comp) kids
    return (leave a r.1, .elem x r.2)
/-- The children in order. -/
def presentL (hd : Head) (infos : List RInfo) (c : Ctx) (parent : Option Computed) :
    List (Node Att) → Except PErr (Ctx × List (Node PLab))
  | [] => .ok (c, [])
  | k :: ks => do
    let r ← present hd infos c parent k
    let rs ← presentL hd infos r.1 parent ks
    return (rs.1, r.2 :: rs.2)
end

/-- A document: the layout, then the body, with an empty stack and no region
(bindings/__init__.py:611-620). -/
def presentDoc (hd : Head) (body : Node Att) : Except PErr (List RInfo × Node PLab) := do
  let infos ← presentRegions hd hd.regions
  let r ← present hd infos ⟨[], none⟩ none body
  return (infos, r.2)

end Verif.Style
