import Verif.Doc.Timing

/-! Small specification of the timing rules, independent of the traversal and its stacks.

The label of an element carries its attributes and its computed times; a path is the list of labels
from the body down to an element.  `eff` turns a zero attribute into an absent one, as the code does
(`C14_false_zero_begin` and `C14_false_zero_end` show where this departs from the plain rule). -/
namespace Verif.Doc

/-- The begin an element specifies, relative to its parent (0 if none). -/
def begOf (x : Lab) : Int := (eff x.att.beg).getD 0

/-- Sum of the begins on a path. -/
def absBegin (path : List Lab) : Int := (path.map begOf).sum

/-- The ends an element specifies, resolved against its parent's begin `base`: its `end`, and for the
body also its `dur`, counted from its begin or else from the availability time. -/
def ownEnds (avail base : Int) (x : Lab) : List Int :=
  (match eff x.att.fin with
    | some e => [base + e]
    | none => []) ++
  (match x.att.kind, eff x.att.dur with
    | .body, some d =>
      [(match eff x.att.beg with
        | some b => base + b
        | none => avail) + d]
    | _, _ => [])

/-- All the ends specified on a path, each resolved against the element's parent. -/
def pathEnds (avail : Int) : Int → List Lab → List Int
  | _, [] => []
  | base, x :: xs => ownEnds avail base x ++ pathEnds avail (base + begOf x) xs

/-- `o` is the earliest of the times `l`, `none` if there is none. -/
def Earliest (l : List Int) (o : Option Int) : Prop :=
  match o with
  | none => l = []
  | some m => m ∈ l ∧ ∀ y ∈ l, m ≤ y

/-- The children that take part in their container's timing. -/
def GoodKid (kids : List (Node Lab)) (y : Lab) : Prop :=
  ∃ ys, Node.elem y ys ∈ kids ∧ badly y.att = false

/-- The begin rule. -/
def BeginRule (avail : Int) (anc : List Lab) (x : Lab) (kids : List (Node Lab)) : Prop :=
  (((eff x.att.beg).isSome ∨ ∀ y, ¬ GoodKid kids y) → x.comp.b = max avail (absBegin (anc ++ [x]))) ∧
  ((eff x.att.beg = none ∧ ∃ y, GoodKid kids y) →
    (∃ y, GoodKid kids y ∧ x.comp.b = y.comp.b) ∧ ∀ y, GoodKid kids y → x.comp.b ≤ y.comp.b)

/-- The end rule. -/
def EndRule (avail : Int) (anc : List Lab) (x : Lab) (kids : List (Node Lab)) : Prop :=
  ((ownEnds avail (absBegin anc) x ≠ [] ∨ ∀ y, ¬ GoodKid kids y) →
    Earliest (pathEnds avail 0 (anc ++ [x])) x.comp.e) ∧
  ((ownEnds avail (absBegin anc) x = [] ∧ ∃ y, GoodKid kids y) →
    (x.comp.e = none ↔ ∃ y, GoodKid kids y ∧ y.comp.e = none) ∧
    ∀ m, x.comp.e = some m →
      (∃ y, GoodKid kids y ∧ y.comp.e = some m) ∧ ∀ y m', GoodKid kids y → y.comp.e = some m' → m' ≤ m)

/-- What parsing guarantees: times are not negative, and the body is the outermost element only. -/
structure Sane (root : Node Att) : Prop where
  nonneg : ∀ anc a kids, Reach root anc (.elem a kids) → ∀ v, a.beg = some v ∨ a.fin = some v ∨ a.dur = some v → 0 ≤ v.delta
  body : ∃ a kids, root = .elem a kids ∧ a.kind = .body
  inner : ∀ anc a kids, Reach root anc (.elem a kids) → a.kind = .body → anc = []

end Verif.Doc
