/-
The traversal that validation, segmentation, deduplication and retiming are built on
(`RecursiveOperation`, `/repo/ebu_tt_live/bindings/pyxb_utils.py:56-157`), over arbitrary hooks.

Simplifications: the hooks do not change which children an element has while it is traversed (those in /repo change attributes,
copies and data sets only); keyword arguments are part of the state of the hooks.
-/
namespace Verif.Walk

/-- A value with its children in the order of `_children_iterator`; a value that is not a complex type, or whose content is not
complex, has none (pyxb_utils.py:103-107). -/
inductive Tree (α : Type) where
  | node (x : α) (kids : List (Tree α))
deriving Repr

def Tree.kids {α : Type} : Tree α → List (Tree α)
  | .node _ ks => ks

def Tree.val {α : Type} : Tree α → α
  | .node x _ => x

/-- Where a value is: the positions to go to from the root. -/
abbrev Path := List Nat

/-- How a hook or a step ends: it returns, raises `StopBranchIteration` (errors.py:68-78), or raises something else. -/
inductive Out (ε β : Type) where
  | ok (v : β)
  | stop
  | fail (e : ε)
deriving Repr, DecidableEq

/-- The filter and the hooks (pyxb_utils.py:81-87, 147-157), given the place and the value.  `keep` is the whole test of lines
124-125: the item is an element, or the root, and the filter selects it.  `process` gets the results of the children if they come first
(lines 129-132), `after` gets the value of `process` and the results of the children (line 138). -/
structure Hooks (α σ ε β : Type) where
  keep : Path → Tree α → Bool
  before : Path → Tree α → σ → Out ε Unit × σ
  process : Path → Tree α → List β → σ → Out ε (Option β) × σ
  after : Path → Tree α → Option β → List β → σ → Out ε Unit × σ
  other : Path → Tree α → σ → Out ε (Option β) × σ

/-- One thing after the other; an exception ends it. -/
def andThen {ε β γ σ : Type} (r : Out ε β × σ) (k : β → σ → Out ε γ × σ) : Out ε γ × σ :=
  match r with
  | (.ok v, s) => k v s
  | (.stop, s) => (.stop, s)
  | (.fail e, s) => (.fail e, s)

mutual
/-- `_recursive_step` (pyxb_utils.py:120-142). -/
def step {α σ ε β : Type} (h : Hooks α σ ε β) (post : Bool) (p : Path) : Tree α → σ → Out ε (Option β) × σ
  | .node x ks, s =>
    if h.keep p (.node x ks) = true then
      andThen (h.before p (.node x ks) s) fun _ s =>
        if post then
          andThen (steps h post p 0 ks s) fun cs s =>
          andThen (h.process p (.node x ks) cs s) fun v s =>
          andThen (h.after p (.node x ks) v cs s) fun _ s => (.ok v, s)
        else
          andThen (h.process p (.node x ks) [] s) fun v s =>
          andThen (steps h post p 0 ks s) fun cs s =>
          andThen (h.after p (.node x ks) v cs s) fun _ s => (.ok v, s)
    else h.other p (.node x ks) s
/-- `_process_children` (pyxb_utils.py:94-118), from the child at `i` on. -/
def steps {α σ ε β : Type} (h : Hooks α σ ε β) (post : Bool) (p : Path) (i : Nat) : List (Tree α) → σ → Out ε (List β) × σ
  | [], s => (.ok [], s)
  | k :: ks, s =>
    match step h post (p ++ [i]) k s with
    | (.ok v, s) => andThen (steps h post p (i + 1) ks s) fun vs s => (.ok (v.toList ++ vs), s)
    | (.stop, s) => steps h post p (i + 1) ks s
    | (.fail e, s) => (.fail e, s)
end

/-- `proceed` (pyxb_utils.py:144-145). -/
def proceed {α σ ε β : Type} (h : Hooks α σ ε β) (post : Bool) (t : Tree α) (s : σ) : Out ε (Option β) × σ := step h post [] t s

end Verif.Walk
