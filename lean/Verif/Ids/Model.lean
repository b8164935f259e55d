/-!
# Identifiers: registration during validation and lookup

`IDMixin._semantic_register_id` (ebu_tt_live/bindings/validation/base.py:213-222), the traversal that
calls it (`RecursiveOperation`, bindings/pyxb_utils.py:94-142) and `tt_type.get_element_by_id`
(bindings/__init__.py:634-646).  The other checks of validation are left out.
-/
namespace Verif.Ids

/-- The classes of elements that matter: those with `IDMixin` register their id in
`_semantic_before_traversal` (bindings/__init__.py:419-420, :716-717, :785-786, :860-861, :1059-1060);
everything else, metadata elements for instance, does not, whatever `xml:id` it has. -/
inductive Kind where
  | style
  | region
  | div
  | p
  | span
  | other
deriving DecidableEq, Repr

/-- An element object: which one it is, its class and its `xml:id`. -/
structure Obj where
  uid : Nat
  kind : Kind
  id : Option String
deriving DecidableEq, Repr

/-- A document tree; text is left out. -/
inductive Tree where
  | node (obj : Obj) (kids : List Tree)

/-- `_elements_by_id`. -/
abbrev Dict := List (String × Obj)

/-- `_semantic_register_id` (validation/base.py:213-222): `false` is the `SemanticValidationError`, which
leaves the dictionary as it was. -/
def register (d : Dict) (o : Obj) : Bool × Dict :=
  if o.kind = .other then (true, d)
  else match o.id with
    | none => (true, d)
    | some i => if (d.lookup i).isSome then (false, d) else (true, d ++ [(i, o)])

mutual
/-- `_recursive_step` (pyxb_utils.py:120-142) with the registration as `_before_element`; an exception
ends the traversal. -/
def visit (d : Dict) : Tree → Bool × Dict
  | .node o ks =>
    match register d o with
    | (false, d) => (false, d)
    | (true, d) => visitL d ks
/-- `_process_children` (pyxb_utils.py:94-118). -/
def visitL (d : Dict) : List Tree → Bool × Dict
  | [] => (true, d)
  | t :: ts =>
    match visit d t with
    | (false, d) => (false, d)
    | (true, d) => visitL d ts
end

/-- A tt element: its tree and `_elements_by_id`, `none` before the first validation. -/
structure Doc where
  tree : Tree
  byId : Option Dict

/-- Validation: `_semantic_before_traversal` (bindings/__init__.py:611-620) starts with an empty
dictionary, which stays attached to the element even if the traversal is ended by an exception. The
answer is whether it succeeded. -/
def Doc.validate (t : Doc) : Bool × Doc :=
  let r := visit [] t.tree
  (r.1, { t with byId := some r.2 })

inductive Found where
  /-- `SemanticValidationError(ERR_SEMANTIC_VALIDATION_EXPECTED)` -/
  | notValidated
  /-- `LookupError` -/
  | missing
  | element (o : Obj)
deriving DecidableEq, Repr

/-- `get_element_by_id` (bindings/__init__.py:634-646). -/
def Doc.get (t : Doc) (i : String) (k : Option Kind) : Found :=
  match t.byId with
  | none => .notValidated
  | some d =>
    match d.lookup i with
    | none => .missing
    | some o =>
      match k with
      | none => .element o
      | some k => if o.kind = k then .element o else .missing

end Verif.Ids
