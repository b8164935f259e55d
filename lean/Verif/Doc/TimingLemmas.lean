import Verif.Doc.TimingSpec

/-! Helper lemmas for the timing theorems. -/
namespace Verif.Doc

/-- The end an element proposes, without the stacks. -/
def ownEnd (avail sync : Int) (bound : Option Int) (a : Att) : Option Int :=
  preEnd { sync := sync, begs := [], ends := bound.toList, avail := avail } a

/-- The bound in force below an element. -/
def below (own bound : Option Int) : Option Int :=
  match own with
  | some e => some e
  | none => bound

/-- The computed times of an element, without the stacks. -/
def compOf (avail sync : Int) (bound : Option Int) (a : Att) (kids : List Comp) : Comp :=
  let sync' := sync + (eff a.beg).getD 0
  let cb := if avail ≠ 0 then max sync' avail else sync'
  let ce := match ownEnd avail sync bound a with
    | some e => some e
    | none => match kids with
      | [] => bound
      | _ => maxEnd kids
  let p : Int × Option Int := if a.kind = .body ∧ badly a = true then (0, none) else (cb, ce)
  { b := if (eff a.beg).isNone then postBegin p.1 kids else p.1, e := p.2 }

mutual
def times (avail sync : Int) (bound : Option Int) : Node Att → Node Lab
  | .text s => .text s
  | .br => .br
  | .elem a kids =>
    let kids' := timesL avail (sync + (eff a.beg).getD 0) (below (ownEnd avail sync bound a) bound) kids
    .elem { att := a, comp := compOf avail sync bound a (timedKids kids') } kids'
def timesL (avail sync : Int) (bound : Option Int) : List (Node Att) → List (Node Lab)
  | [] => []
  | k :: ks => times avail sync bound k :: timesL avail sync bound ks
end

theorem timesL_eq (avail sync : Int) (bound : Option Int) (ks : List (Node Att)) :
    timesL avail sync bound ks = ks.map (times avail sync bound) := by
  induction ks with
  | nil => rfl
  | cons k ks ih => simp [timesL, ih]

theorem preEnd_own (c : Ctx) (a : Att) : preEnd c a = ownEnd c.avail c.sync c.ends.head? a := by
  unfold ownEnd preEnd baseEnd
  cases c.ends <;> cases a.kind <;> cases eff a.dur <;> cases eff a.fin <;> cases eff a.beg <;> rfl

theorem popsEnd_own (avail sync : Int) (bound : Option Int) (a : Att) :
    popsEnd a = (ownEnd avail sync bound a).isSome := by
  unfold popsEnd ownEnd preEnd baseEnd
  cases a.kind <;> cases eff a.fin <;> cases eff a.dur <;> cases eff a.beg <;> rfl

theorem pre_eq (c : Ctx) (a : Att) : pre c a =
    ({ sync := c.sync + (eff a.beg).getD 0
       begs := (eff a.beg).toList ++ c.begs
       ends := (ownEnd c.avail c.sync c.ends.head? a).toList ++ c.ends
       avail := c.avail },
     (if c.avail ≠ 0 then max (c.sync + (eff a.beg).getD 0) c.avail else c.sync + (eff a.beg).getD 0),
     ownEnd c.avail c.sync c.ends.head? a) := by
  unfold pre
  rw [preEnd_own]
  cases ownEnd c.avail c.sync c.ends.head? a <;> cases eff a.beg <;> simp

theorem post_eq (c : Ctx) (a : Att) (kids : List (Node Lab)) :
    post { sync := c.sync + (eff a.beg).getD 0
           begs := (eff a.beg).toList ++ c.begs
           ends := (ownEnd c.avail c.sync c.ends.head? a).toList ++ c.ends
           avail := c.avail } a
      (if c.avail ≠ 0 then max (c.sync + (eff a.beg).getD 0) c.avail else c.sync + (eff a.beg).getD 0)
      (ownEnd c.avail c.sync c.ends.head? a) kids
    = .ok (c, compOf c.avail c.sync c.ends.head? a (timedKids kids)) := by
  unfold post compOf popBegin popEnd
  rw [popsEnd_own c.avail c.sync c.ends.head?]
  generalize hb : eff a.beg = ob
  generalize ho : ownEnd c.avail c.sync c.ends.head? a = oe
  cases ob <;> cases oe <;>
    simp [bind, Except.bind, pure, Except.pure, postEnd] <;>
    (try (generalize timedKids kids = tk; cases tk <;> simp)) <;>
    (try omega) <;>
    (try (have : ∀ z : Int, c.sync + z - z = c.sync := by intro z; omega)) <;> (try simp [this])

mutual
theorem validate_eq : ∀ (n : Node Att) (c : Ctx),
    validate c n = .ok (c, times c.avail c.sync c.ends.head? n)
  | .text s, c => rfl
  | .br, c => rfl
  | .elem a kids, c => by
    simp only [validate, times]
    rw [pre_eq]
    simp only [bind, Except.bind]
    rw [validateL_eq kids]
    simp only
    have hh : ((ownEnd c.avail c.sync c.ends.head? a).toList ++ c.ends).head? =
        below (ownEnd c.avail c.sync c.ends.head? a) c.ends.head? := by
      cases ownEnd c.avail c.sync c.ends.head? a <;> rfl
    rw [post_eq, hh]
    rfl
theorem validateL_eq : ∀ (ns : List (Node Att)) (c : Ctx),
    validateL c ns = .ok (c, timesL c.avail c.sync c.ends.head? ns)
  | [], c => rfl
  | n :: ns, c => by
    simp only [validateL, timesL, bind, Except.bind]
    rw [validate_eq n c]
    simp only
    rw [validateL_eq ns c]
    rfl
end

end Verif.Doc
