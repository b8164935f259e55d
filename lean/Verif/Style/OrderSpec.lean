import Verif.Style.Order

/-
What resolving style references means, independently of how it is done.
-/
namespace Verif.Style

/-- Style `a` exists and refers to `b`. -/
def Refers (sh : Sheet) (a b : Name) : Prop := ∃ refs, find sh a = some refs ∧ b ∈ refs

/-- `b` can be reached from `a` by following references, in zero or more steps. -/
inductive Reaches (sh : Sheet) : Name → Name → Prop
  | refl (a : Name) : Reaches sh a a
  | step {a b c : Name} : Refers sh a b → Reaches sh b c → Reaches sh a c

/-- Some style reachable from `a` refers back to itself, directly or through others. -/
def Loop (sh : Sheet) (a : Name) : Prop := ∃ x y, Reaches sh a x ∧ Refers sh x y ∧ Reaches sh y x

/-- A reference reachable from `a` names no style. -/
def Dangling (sh : Sheet) (a : Name) : Prop := ∃ x, Reaches sh a x ∧ find sh x = none

/-- `Gives sh own a v`: where `own x` is the value the style `x` itself sets for some attribute, the
value style `a` stands for is `v`: its own, or else that of the first of its references (in order)
from which a style setting the attribute can be reached. -/
inductive Gives {α : Type} (sh : Sheet) (own : Name → Option α) : Name → α → Prop
  | own {a : Name} {v : α} : own a = some v → Gives sh own a v
  | ref {a b : Name} {v : α} {pre post : List Name} : own a = none → find sh a = some (pre ++ b :: post) →
      (∀ c ∈ pre, ∀ x, Reaches sh c x → own x = none) → Gives sh own b v → Gives sh own a v

/-- The same for a list of references: the first one that leads to a value. -/
def GivesList {α : Type} (sh : Sheet) (own : Name → Option α) (refs : List Name) (v : α) : Prop :=
  ∃ pre b post, refs = pre ++ b :: post ∧ (∀ c ∈ pre, ∀ x, Reaches sh c x → own x = none) ∧ Gives sh own b v

end Verif.Style
