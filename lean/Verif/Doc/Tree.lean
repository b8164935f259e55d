/-
The content tree of a document: body, div, p, span, text and line breaks.

Models the PyXB bindings of `/repo/ebu_tt_live/bindings/__init__.py` (`body_type`, `div_type`, `p_type`,
`span_type`, `br_type`) as far as content, identifiers, timing and style/region references go.
Simplifications: metadata children are left out (they are neither timed nor text); attributes that the
modelled functions only copy (space, lang, agent, role) are left out.
-/
namespace Verif.Doc

/-- The timed element types. -/
inductive Kind where
  | body | div | p | span
deriving DecidableEq, Repr

/-- A timing attribute value: its text and the time it stands for, in microseconds
(`value.timedelta`; see `Verif.Time.readAs`). -/
structure TV where
  text : List Char
  delta : Int
deriving DecidableEq, Repr

/-- The attributes of a timed element. -/
structure Att where
  kind : Kind
  id : Option (List Char) := none
  beg : Option TV := none
  fin : Option TV := none
  dur : Option TV := none
  region : Option (List Char) := none
  style : List (List Char) := []
deriving DecidableEq, Repr

/-- Content: `orderedContent()` of an element.  The label type is `Att` for a parsed document and
`Lab` for a validated one. -/
inductive Node (α : Type) where
  | text (s : List Char)
  | br
  | elem (x : α) (kids : List (Node α))
deriving Repr

/-- Computed times: `computed_begin_time` and `computed_end_time`. -/
structure Comp where
  b : Int
  e : Option Int
deriving DecidableEq, Repr

/-- The label of a validated element. -/
structure Lab where
  att : Att
  comp : Comp
deriving DecidableEq, Repr

/-- `Reach root anc n`: content item `n` lies in `root`, and `anc` lists the labels of the elements
around it, outermost first. -/
inductive Reach {α : Type} (root : Node α) : List α → Node α → Prop
  | here : Reach root [] root
  | step {anc : List α} {x : α} {kids : List (Node α)} {k : Node α} :
      Reach root anc (.elem x kids) → k ∈ kids → Reach root (anc ++ [x]) k

mutual
/-- Forget the computed times. -/
def erase : Node Lab → Node Att
  | .text s => .text s
  | .br => .br
  | .elem x kids => .elem x.att (eraseL kids)
def eraseL : List (Node Lab) → List (Node Att)
  | [] => []
  | k :: ks => erase k :: eraseL ks
end

theorem eraseL_eq (ks : List (Node Lab)) : eraseL ks = ks.map erase := by
  induction ks with
  | nil => rfl
  | cons k ks ih => simp [eraseL, ih]

end Verif.Doc
