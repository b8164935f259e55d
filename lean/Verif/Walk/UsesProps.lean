import Verif.Walk.Uses
import Verif.Walk.Props
import Verif.Node.RetimeProps

/-
C90: the operations as the traversal runs them do what their models say.
-/
namespace Verif.Walk

open Verif.Doc (Node Att Lab Comp)

/-! ### `UntimedPathFinder` -/

theorem any_span : ∀ kids : List (Node Att), (ofNodes kids).any (fun k => k.val.isSpan) = kids.any (Doc.isSpan Att.kind)
  | [] => rfl
  | k :: ks => by
    rw [ofNodes, List.any_cons, List.any_cons, any_span ks]
    congr 1
    cases k <;> simp [ofNode, Tree.val, Item.isSpan, Doc.isSpan]

theorem leafHere_eq (a : Att) (kids : List (Node Att)) : leafHere (.node (.elem a) (ofNodes kids)) = Node.timedLeaf a kids := by
  rw [Node.timedLeaf, Doc.Leaf, ← any_span]
  rfl

theorem finder_skips (p : Path) (n : Node Att) (st : List Att) :
    (step finder false p (ofNode n) ⟨true, st⟩).2 = ⟨true, st⟩ ∧ endOf (step finder false p (ofNode n) ⟨true, st⟩).1 ≠ .failed := by
  cases n <;> simp [ofNode, step, finder, Tree.val, Item.isElem, andThen, endOf]

theorem finder_skipsL (p : Path) : ∀ (i : Nat) (ns : List (Node Att)) (st : List Att),
    ∃ vs, steps finder false p i (ofNodes ns) ⟨true, st⟩ = (.ok vs, ⟨true, st⟩)
  | i, [], st => ⟨[], by rw [ofNodes, steps]⟩
  | i, n :: ns, st => by
    obtain ⟨h1, h2⟩ := finder_skips (p ++ [i]) n st
    obtain ⟨vs, hv⟩ := finder_skipsL p (i + 1) ns st
    rw [ofNodes, steps]
    rcases hr : step finder false (p ++ [i]) (ofNode n) ⟨true, st⟩ with ⟨o, s⟩
    rw [hr] at h1 h2
    have h1 : s = ⟨true, st⟩ := h1
    subst h1
    cases o with
    | ok v => exact ⟨v.toList ++ vs, by simp only; rw [hv]; rfl⟩
    | stop => exact ⟨vs, hv⟩
    | fail e => exact absurd rfl h2

/-- What has been found after an item. -/
def foundIn (st : List Att) (b : Bool) : Bool := st.isEmpty && b

/-- An element, given what its children do. -/
theorem finder_elem (p : Path) (a : Att) (kids : List (Node Att)) (st : List Att)
    (hk : ∀ st, ∃ vs, steps finder false p 0 (ofNodes kids) ⟨false, st⟩ = (.ok vs, ⟨foundIn st (Node.untimedLeafL kids), st⟩)) :
    step finder false p (ofNode (.elem a kids)) ⟨false, st⟩ =
      if a.beg.isSome = true then (.ok none, ⟨false, st⟩)
      else if (Node.timedLeaf a kids && st.isEmpty) = true then (.stop, ⟨true, st⟩)
      else (.ok none, ⟨foundIn st (Node.untimedLeafL kids), st⟩) := by
  rw [ofNode, step, if_pos (show finder.keep p (.node (.elem a) (ofNodes kids)) = true from rfl)]
  have hpr : ∀ s : Finder, finder.process p (.node (.elem a) (ofNodes kids)) [] s =
      if (Node.timedLeaf a kids && s.stack.isEmpty) = true then (.stop, { s with found := true }) else (.ok none, s) := by
    intro s
    rw [← leafHere_eq]; rfl
  by_cases hb : a.beg.isSome = true
  · rw [if_pos hb]
    have h1 : finder.before p (.node (.elem a) (ofNodes kids)) ⟨false, st⟩ = (.ok (), ⟨false, a :: st⟩) := if_pos hb
    have h2 : ∀ v cs f b s, finder.after p (.node (.elem a) (ofNodes kids)) v cs ⟨f, b :: s⟩ = (.ok (), ⟨f, s⟩) := fun _ _ _ _ _ => if_pos hb
    obtain ⟨vs, hv⟩ := hk (a :: st)
    rw [h1]
    simp only [andThen, Bool.false_eq_true, if_false]
    rw [hpr]
    simp only [List.isEmpty_cons, Bool.and_false, Bool.false_eq_true, if_false]
    rw [hv]
    simp only
    rw [h2]
    rfl
  · rw [if_neg hb]
    have h1 : finder.before p (.node (.elem a) (ofNodes kids)) ⟨false, st⟩ = (.ok (), ⟨false, st⟩) := if_neg hb
    have h2 : ∀ v cs s, finder.after p (.node (.elem a) (ofNodes kids)) v cs s = (.ok (), s) := fun _ _ _ => if_neg hb
    obtain ⟨vs, hv⟩ := hk st
    rw [h1]
    simp only [andThen, Bool.false_eq_true, if_false]
    rw [hpr]
    by_cases hl : (Node.timedLeaf a kids && st.isEmpty) = true
    · rw [if_pos hl, if_pos hl]
    · rw [if_neg hl, if_neg hl]
      simp only
      rw [hv]
      simp only
      rw [h2]

mutual
theorem finder_step (p : Path) : ∀ (n : Node Att) (st : List Att),
    (step finder false p (ofNode n) ⟨false, st⟩).2 = ⟨foundIn st (Node.untimedLeaf n), st⟩ ∧
    endOf (step finder false p (ofNode n) ⟨false, st⟩).1 ≠ .failed
  | .text s, st => by simp [ofNode, step, finder, Tree.val, Item.isElem, endOf, Node.untimedLeaf, foundIn]
  | .br, st => by simp [ofNode, step, finder, Tree.val, Item.isElem, endOf, Node.untimedLeaf, foundIn]
  | .elem a kids, st => by
    rw [finder_elem p a kids st (finder_steps p 0 kids), Node.untimedLeaf]
    by_cases hb : a.beg.isSome = true
    · have hn : a.beg.isNone = false := by cases h : a.beg <;> simp_all
      rw [if_pos hb, hn]
      simp [foundIn, endOf]
    · have hn : a.beg.isNone = true := by cases h : a.beg <;> simp_all
      rw [if_neg hb, hn]
      by_cases hl : (Node.timedLeaf a kids && st.isEmpty) = true
      · rw [if_pos hl]
        rw [Bool.and_eq_true] at hl
        simp [foundIn, endOf, hl.1, hl.2]
      · rw [if_neg hl]
        refine ⟨?_, by simp [endOf]⟩
        cases h1 : Node.timedLeaf a kids <;> cases h2 : st.isEmpty <;> simp_all [foundIn]
theorem finder_steps (p : Path) : ∀ (i : Nat) (ns : List (Node Att)) (st : List Att),
    ∃ vs, steps finder false p i (ofNodes ns) ⟨false, st⟩ = (.ok vs, ⟨foundIn st (Node.untimedLeafL ns), st⟩)
  | i, [], st => ⟨[], by rw [ofNodes, steps, Node.untimedLeafL, foundIn, Bool.and_false]⟩
  | i, n :: ns, st => by
    obtain ⟨h1, h2⟩ := finder_step (p ++ [i]) n st
    rw [ofNodes, steps, Node.untimedLeafL]
    rcases hr : step finder false (p ++ [i]) (ofNode n) ⟨false, st⟩ with ⟨o, s⟩
    rw [hr] at h1 h2
    have h1 : s = ⟨foundIn st (Node.untimedLeaf n), st⟩ := h1
    have rest : ∃ vs, steps finder false p (i + 1) (ofNodes ns) s =
        (.ok vs, ⟨foundIn st (Node.untimedLeaf n || Node.untimedLeafL ns), st⟩) := by
      rw [h1]
      by_cases hf : foundIn st (Node.untimedLeaf n) = true
      · obtain ⟨vs, hv⟩ := finder_skipsL p (i + 1) ns st
        rw [hf, hv]
        refine ⟨vs, ?_⟩
        rw [foundIn, Bool.and_eq_true] at hf
        rw [foundIn, hf.1, hf.2]; rfl
      · obtain ⟨vs, hv⟩ := finder_steps p (i + 1) ns st
        rw [Bool.not_eq_true] at hf
        rw [hf, hv]
        refine ⟨vs, ?_⟩
        unfold foundIn at hf ⊢
        cases h : st.isEmpty <;> simp_all
    obtain ⟨vs, hv⟩ := rest
    cases o with
    | ok v => exact ⟨v.toList ++ vs, by simp only; rw [hv]; rfl⟩
    | stop => exact ⟨vs, hv⟩
    | fail e => exact absurd rfl h2
end

/-- C90, retiming: the search ends without an exception and finds a leaf without a begin on itself and around it exactly if there is one
(in a body: something that is not a leaf itself). -/
theorem C90_finder (a : Att) (kids : List (Node Att)) (ha : a.kind = .body ∨ a.kind = .div) :
    findsUntimed (.elem a kids) = some (Node.untimedLeaf (.elem a kids)) := by
  have hl : Node.timedLeaf a kids = false := by
    rcases ha with h | h <;> simp [Node.timedLeaf, Doc.Leaf, h]
  have h := finder_elem [] a kids [] (finder_steps [] 0 kids)
  unfold findsUntimed proceed
  rw [h, hl, Node.untimedLeaf, hl]
  by_cases hb : a.beg.isSome = true
  · have hn : a.beg.isNone = false := by cases h : a.beg <;> simp_all
    rw [if_pos hb, hn]; rfl
  · have hn : a.beg.isNone = true := by cases h : a.beg <;> simp_all
    rw [if_neg hb, hn]
    simp [foundIn]

example : findsUntimed (.elem { kind := .body } [.elem { kind := .div } [.elem { kind := .p, beg := Doc.sec 2 } [.text ['a']],
    .elem { kind := .p } [.elem { kind := .span, beg := Doc.sec 1 } [.text ['b']]], .elem { kind := .p } [.text ['c']]]]) = some true := by
  decide +kernel

example : findsUntimed (.elem { kind := .body } [.elem { kind := .div } [.elem { kind := .p, beg := Doc.sec 2 } [.text ['a']],
    .elem { kind := .p } [.elem { kind := .span, beg := Doc.sec 1 } [.text ['b']]]]]) = some false := by
  decide +kernel

/-- Of a p or a span by itself that is such a leaf, `StopBranchIteration` gets out: the search must be started above the leaves. -/
theorem C90_finder_on_leaf (a : Att) (kids : List (Node Att)) (hl : Node.timedLeaf a kids = true) (hb : a.beg = none) :
    findsUntimed (.elem a kids) = none := by
  have h := finder_elem [] a kids [] (finder_steps [] 0 kids)
  unfold findsUntimed proceed
  rw [h, hl, hb]
  rfl

/-! ### Identifiers -/

mutual
theorem registrar_step (p : Path) : ∀ (t : Ids.Tree) (d : Ids.Dict), (step registrar false p (ofTree t) d).2 = (Ids.visit d t).2 ∧
    (step registrar false p (ofTree t) d).1 = if (Ids.visit d t).1 = true then .ok none else .fail ()
  | .node o ks, d => by
    rw [ofTree, step, if_pos (show registrar.keep p (.node o (ofTrees ks)) = true from rfl), Ids.visit]
    rcases hr : Ids.register d o with ⟨b, d'⟩
    have h1 : registrar.before p (.node o (ofTrees ks)) d = if b = true then (.ok (), d') else (.fail (), d') := by
      show (if (Ids.register d o).1 = true then (Out.ok (), (Ids.register d o).2) else (Out.fail (), (Ids.register d o).2)) = _
      rw [hr]
    rw [h1]
    cases b with
    | false => exact ⟨rfl, rfl⟩
    | true =>
      obtain ⟨g1, g2⟩ := registrar_steps p 0 ks d'
      simp only [if_true, andThen, Bool.false_eq_true, if_false]
      rw [show registrar.process p (.node o (ofTrees ks)) [] d' = (.ok none, d') from rfl]
      simp only
      rcases hs : steps registrar false p 0 (ofTrees ks) d' with ⟨o', d''⟩
      rw [hs] at g1 g2
      have g1 : d'' = _ := g1
      cases hv : (Ids.visitL d' ks).1 with
      | true =>
        obtain ⟨vs, g2⟩ := (g2.1 hv)
        have g2 : o' = _ := g2
        rw [g2]
        exact ⟨g1, rfl⟩
      | false =>
        have g2 : o' = _ := g2.2 hv
        rw [g2]
        exact ⟨g1, by simp⟩
theorem registrar_steps (p : Path) : ∀ (i : Nat) (ts : List Ids.Tree) (d : Ids.Dict),
    (steps registrar false p i (ofTrees ts) d).2 = (Ids.visitL d ts).2 ∧
    ((Ids.visitL d ts).1 = true → ∃ vs, (steps registrar false p i (ofTrees ts) d).1 = .ok vs) ∧
    ((Ids.visitL d ts).1 = false → (steps registrar false p i (ofTrees ts) d).1 = .fail ())
  | i, [], d => by rw [ofTrees, steps, Ids.visitL]; exact ⟨rfl, fun _ => ⟨_, rfl⟩, fun h => (by simp at h)⟩
  | i, t :: ts, d => by
    obtain ⟨g1, g2⟩ := registrar_step (p ++ [i]) t d
    rw [ofTrees, steps, Ids.visitL]
    rcases hs : step registrar false (p ++ [i]) (ofTree t) d with ⟨o, d'⟩
    rcases hv : Ids.visit d t with ⟨b, d''⟩
    rw [hs, hv] at g1 g2
    have f1 : d' = d'' := g1
    have f2 : o = if b = true then .ok none else .fail () := g2
    clear g1 g2
    subst f1 f2
    cases b with
    | false => exact ⟨rfl, fun h => (by simp at h), fun _ => rfl⟩
    | true =>
      obtain ⟨k1, k2, k3⟩ := registrar_steps p (i + 1) ts d'
      simp only [if_true]
      rcases hs' : steps registrar false p (i + 1) (ofTrees ts) d' with ⟨o', e⟩
      rw [hs'] at k1 k2 k3
      refine ⟨?_, ?_, ?_⟩
      · rw [← k1]; cases o' <;> rfl
      · intro h; obtain ⟨vs, k⟩ := k2 h; have k : o' = _ := k; rw [k]; exact ⟨_, rfl⟩
      · intro h; have k : o' = _ := k3 h; rw [k]; rfl
end

/-- C90, identifiers: validation as the traversal runs it succeeds exactly if its model does, and leaves the same dictionary. -/
theorem C90_identifiers (t : Ids.Tree) (d : Ids.Dict) :
    (proceed registrar false (ofTree t) d).2 = (Ids.visit d t).2 ∧
    (proceed registrar false (ofTree t) d).1 = if (Ids.visit d t).1 = true then .ok none else .fail () := registrar_step [] t d

end Verif.Walk
