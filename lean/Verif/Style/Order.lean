/-
Model of style reference resolution: `style_type.ordered_styles`
(`/repo/ebu_tt_live/bindings/__init__.py:136-169`), `tt_type.get_element_by_id` (bindings/__init__.py:634-646)
for styles, and the reference collection of `_semantic_collect_applicable_styles`
(`/repo/ebu_tt_live/bindings/validation/presentation.py:66-75`).

Simplifications: a style object is represented by its identifier (xml:id is required on styles and
duplicate identifiers are refused by `_semantic_register_id`, validation/base.py:213-222), so `in` on
style objects, which is identity, is equality of identifiers.  Only the references matter here; the
attributes are in `Verif.Style.Compute`.
-/
namespace Verif.Style

abbrev Name := List Char

/-- A style sheet: the styles of `tt/head/styling` with the identifiers they refer to. -/
abbrev Sheet := List (Name × List Name)

/-- `get_element_by_id(id, style_type)` (bindings/__init__.py:634-646): the references of the style, or
`none` for `LookupError`. -/
def find (sh : Sheet) (id : Name) : Option (List Name) :=
  (List.find? (fun s => decide (s.1 = id)) sh).map Prod.snd

/-- The errors of style resolution. -/
inductive Err where
  /-- `ERR_SEMANTIC_STYLE_CIRCLE` (bindings/__init__.py:145-148) -/
  | circle (id : Name)
  /-- `ERR_SEMANTIC_STYLE_MISSING` (bindings/__init__.py:162-165, presentation.py:74-75) -/
  | missing (id : Name)
  /-- the recursion bound of the model; `C29_total` shows that it is never reached -/
  | fuel
deriving DecidableEq, Repr

/-- `_ordered_styles` of the style objects. -/
abbrev Cache := List (Name × List Name)

def Cache.get (c : Cache) (id : Name) : Option (List Name) :=
  (List.find? (fun s => decide (s.1 = id)) c).map Prod.snd

/-- `for style_elem in cascading_styles: if style_elem in ordered_styles: continue; append`
(bindings/__init__.py:159-162, presentation.py:71-73). -/
def addNew : List Name → List Name → List Name
  | acc, [] => acc
  | acc, x :: xs => if x ∈ acc then addNew acc xs else addNew (acc ++ [x]) xs

/-- The loop over the references (bindings/__init__.py:154-165); `step` resolves one of them. -/
def refsLoop (step : Cache → Name → Except Err (List Name) × Cache) :
    Cache → List Name → List Name → Except Err (List Name) × Cache
  | c, [], acc => (.ok acc, c)
  | c, r :: rs, acc =>
    match step c r with
    | (.error e, c') => (.error e, c')
    | (.ok l, c') => refsLoop step c' rs (addNew acc l)

/-- `style_elem.ordered_styles(dataset)` after the lookup of `style_elem` (bindings/__init__.py:136-169).
`locked` are the styles whose `_styling_lock` is held: those on the recursion path. -/
def visit (sh : Sheet) : Nat → List Name → Cache → Name → Except Err (List Name) × Cache
  | 0, _, c, _ => (.error .fuel, c)
  | n + 1, locked, c, id =>
    match find sh id with
    | none => (.error (.missing id), c)
    | some refs =>
      if id ∈ locked then (.error (.circle id), c)
      else
        match c.get id with
        | some l => (.ok l, c)
        | none =>
          match refsLoop (visit sh n (id :: locked)) c refs [id] with
          | (.error e, c') => (.error e, c')
          | (.ok l, c') => (.ok l, (id, l) :: c')

/-- The styles an element refers to with its `style` attribute, with everything they refer to
(presentation.py:66-75): `_referenced_styles`. -/
def collect (sh : Sheet) (c : Cache) (refs : List Name) : Except Err (List Name) × Cache :=
  refsLoop (visit sh (sh.length + 1) []) c refs []

end Verif.Style
