import Verif.Walk.UsesTiming
import Verif.Walk.Spec

/-
C90: segmentation as the traversal runs it does what its model says.
-/
namespace Verif.Walk

open Verif.Doc (Node Att Lab Comp)

/-- What was kept of an item is linked to its parent, or is the segment if the item is the root. -/
def put (s : Copies) (p : Path) (r : Option (Node Att)) : Copies :=
  match r with
  | none => s
  | some n => (link s p n).getD s

/-- The parent of the item at `p` was copied. -/
def Ready (s : Copies) (p : Path) : Prop := p = [] ∨ (s.copy p.dropLast).isSome = true

/-- Two states that differ at most in the copies of what is at `p` and in it. -/
def AgreeOff (p : Path) (s s' : Copies) : Prop := s.root = s'.root ∧ ∀ q, ¬ p <+: q → s.copy q = s'.copy q

theorem AgreeOff.refl (p : Path) (s : Copies) : AgreeOff p s s := ⟨rfl, fun _ _ => rfl⟩

theorem AgreeOff.trans {p : Path} {a b c : Copies} (h : AgreeOff p a b) (g : AgreeOff p b c) : AgreeOff p a c :=
  ⟨h.1.trans g.1, fun q hq => (h.2 q hq).trans (g.2 q hq)⟩

theorem snoc_or_nil (p : Path) : p = [] ∨ ∃ q i, p = q ++ [i] := by
  rcases List.eq_nil_or_concat p with h | ⟨q, i, h⟩
  · exact .inl h
  · exact .inr ⟨q, i, by rw [h, List.concat_eq_append]⟩

theorem link_ready {s : Copies} {p : Path} (h : Ready s p) (n : Node Att) : ∃ s', link s p n = some s' := by
  rcases snoc_or_nil p with hp | ⟨q, i, hp⟩
  · rw [hp]; exact ⟨_, rfl⟩
  · rcases h with h | h
    · rw [h] at hp; simp at hp
    · obtain ⟨c, hc⟩ := Option.isSome_iff_exists.1 h
      obtain ⟨a, ks⟩ := c
      cases p with
      | nil => simp at hp
      | cons x xs => exact ⟨{ s with copy := setAt s.copy (x :: xs).dropLast (a, ks ++ [n]) }, by simp only [link, hc]⟩

theorem linked_ready {s : Copies} {p : Path} (h : Ready s p) (n : Node Att) : linked s p n = (.ok (), put s p (some n)) := by
  obtain ⟨s', hs⟩ := link_ready h n
  simp only [linked, put, hs, Option.getD_some]

theorem prefix_parent {p : Path} (hp : p ≠ []) : ¬ p <+: p.dropLast := by
  intro h
  have := h.length_le
  rw [List.length_dropLast] at this
  have : p.length ≠ 0 := by simpa using hp
  omega

theorem put_congr {p : Path} {s s' : Copies} (h : AgreeOff p s s') (r : Option (Node Att)) : AgreeOff p (put s p r) (put s' p r) := by
  cases r with
  | none => exact h
  | some n =>
    cases p with
    | nil => exact ⟨rfl, h.2⟩
    | cons x xs =>
      have hd := h.2 _ (prefix_parent (List.cons_ne_nil x xs))
      simp only [put, link]
      rw [hd]
      cases s'.copy (x :: xs).dropLast with
      | none => exact h
      | some c =>
        refine ⟨h.1, fun q hq => ?_⟩
        simp only [Option.getD_some, setAt]
        by_cases hqd : q = (x :: xs).dropLast
        · rw [if_pos hqd, if_pos hqd]
        · rw [if_neg hqd, if_neg hqd]; exact h.2 q hq

/-- All that was kept of the children is linked to their parent. -/
def putL (s : Copies) (p : Path) (ks : List (Node Att)) : Copies :=
  match s.copy p with
  | none => s
  | some (a, l) => { s with copy := setAt s.copy p (a, l ++ ks) }

def AgreeOffL (p : Path) (i : Nat) (s s' : Copies) : Prop :=
  s.root = s'.root ∧ ∀ q, (∀ j, i ≤ j → ¬ (p ++ [j]) <+: q) → s.copy q = s'.copy q

mutual
theorem cutter_step (v : Doc.Env) (p : Path) : ∀ (n : Node Lab) (s : Copies), Ready s p →
    (∀ r, Doc.segNode v n = .ok r → endOf (step (cutter v) false p (ofNode n) s).1 ≠ .failed ∧
      AgreeOff p (step (cutter v) false p (ofNode n) s).2 (put s p r)) ∧
    (∀ e, Doc.segNode v n = .error e → (step (cutter v) false p (ofNode n) s).1 = .fail e)
  | .text c, s, hs => by
    have h : step (cutter v) false p (ofNode (.text c)) s = (.ok none, put s p (some (.text c))) := by
      rw [ofNode, step, if_neg (show ¬ (cutter v).keep p (.node (.text c) []) = true from by simp [cutter, Tree.val])]
      simp only [cutter, Tree.val]
      rw [linked_ready hs]
    rw [h, Doc.segNode]
    refine ⟨fun r hr => ?_, fun e he => by simp at he⟩
    injection hr with hr
    rw [← hr]
    exact ⟨by simp [endOf], AgreeOff.refl _ _⟩
  | .br, s, hs => by
    have h : step (cutter v) false p (ofNode .br) s = (.ok none, put s p (some .br)) := by
      rw [ofNode, step, if_pos (show (cutter v).keep p (.node .br []) = true from rfl)]
      rw [show (cutter v).before p (.node .br []) s = (.ok (), s) from rfl]
      simp only [andThen, Bool.false_eq_true, if_false]
      rw [show (cutter v).process p (.node .br []) [] s = (.ok none, s) from rfl]
      simp only [steps]
      rw [show ∀ x y, (cutter v).after p (.node .br []) x y s = linked s p .br from fun _ _ => rfl, linked_ready hs]
    rw [h, Doc.segNode]
    refine ⟨fun r hr => ?_, fun e he => by simp at he⟩
    injection hr with hr
    rw [← hr]
    exact ⟨by simp [endOf], AgreeOff.refl _ _⟩
  | .elem x kids, s, hs => by
    rw [ofNode, step, if_pos (show (cutter v).keep p (.node (.elem x) (ofNodes kids)) = true from rfl), Doc.segNode]
    rw [show (cutter v).before p (.node (.elem x) (ofNodes kids)) s =
      if Doc.inSeg v.win x.comp = true then (.ok (), s) else (.stop, s) from rfl]
    by_cases hin : Doc.inSeg v.win x.comp = true
    · rw [if_pos hin, if_pos hin]
      simp only [andThen, Bool.false_eq_true, if_false, bind, Except.bind]
      rw [show (cutter v).process p (.node (.elem x) (ofNodes kids)) [] s =
        match Doc.copyAtt v x.att with
        | .ok a => (.ok none, { s with copy := setAt s.copy p (a, []) })
        | .error e => (.fail e, s) from rfl]
      cases hc : Doc.copyAtt v x.att with
      | error e =>
        refine ⟨fun r hr => by simp at hr, fun e' he => ?_⟩
        simp only [Except.error.injEq] at he
        rw [he]
      | ok a =>
        simp only
        have hown : ({ s with copy := setAt s.copy p (a, []) } : Copies).copy p = some (a, []) := setAt_self _ _ _
        obtain ⟨g1, g2⟩ := cutter_steps v p 0 kids { s with copy := setAt s.copy p (a, []) } a [] hown
        cases hk : Doc.segList v kids with
        | error e =>
          have g := g2 e hk
          rcases hst : steps (cutter v) false p 0 (ofNodes kids) { s with copy := setAt s.copy p (a, []) } with ⟨o, s2⟩
          rw [hst] at g
          have g' : o = .fail e := g
          rw [g']
          refine ⟨fun r hr => by simp at hr, fun e' he => ?_⟩
          simp only [Except.error.injEq] at he
          rw [he]
        | ok ks =>
          obtain ⟨vs, s2, hst, hag⟩ := g1 ks hk
          rw [hst]
          simp only
          have hpl : putL { s with copy := setAt s.copy p (a, []) } p ks = { s with copy := setAt (setAt s.copy p (a, [])) p (a, ks) } := by
            simp only [putL, setAt_self, List.nil_append]
          have hcp : s2.copy p = some (a, ks) := by
            rw [hag.2 p (fun j _ => not_prefix_longer p j)]
            rw [hpl]
            exact setAt_self _ _ _
          have hoff : AgreeOff p s2 s := by
            refine ⟨?_, fun q hq => ?_⟩
            · rw [hag.1, hpl]
            · rw [hag.2 q (fun j _ hj => hq ((List.prefix_append _ _).trans hj))]
              have hne : q ≠ p := fun h => hq (h ▸ List.prefix_refl _)
              rw [hpl]
              simp only
              rw [setAt_ne _ _ hne, setAt_ne _ _ hne]
          have haft : ∀ y z, (cutter v).after p (.node (.elem x) (ofNodes kids)) y z s2 =
              if Doc.isEmpty a.kind ks = true then (.ok (), s2)
              else match Doc.leafTiming v x.comp a ks with
                | .ok a => linked { s2 with copy := setAt s2.copy p (a, ks) } p (.elem a ks)
                | .error e => (.fail e, s2) := by
            intro y z
            simp only [cutter, Tree.val, hcp]
            rfl
          rw [haft]
          by_cases hem : Doc.isEmpty a.kind ks = true
          · rw [if_pos hem, if_pos hem]
            refine ⟨fun r hr => ?_, fun e he => by simp [pure, Except.pure] at he⟩
            simp only [pure, Except.pure, Except.ok.injEq] at hr
            rw [← hr]
            exact ⟨by simp [endOf], hoff⟩
          · rw [if_neg hem, if_neg hem]
            cases hl : Doc.leafTiming v x.comp a ks with
            | error e =>
              refine ⟨fun r hr => by simp at hr, fun e' he => ?_⟩
              simp only [Except.error.injEq] at he
              rw [he]
            | ok a' =>
              simp only
              have hoff' : AgreeOff p { s2 with copy := setAt s2.copy p (a', ks) } s := by
                refine ⟨hoff.1, fun q hq => ?_⟩
                have hne : q ≠ p := fun h => hq (h ▸ List.prefix_refl _)
                simp only
                rw [setAt_ne _ _ hne]
                exact hoff.2 q hq
              have hrdy : Ready { s2 with copy := setAt s2.copy p (a', ks) } p := by
                rcases hs with h | h
                · exact .inl h
                · by_cases hp : p = []
                  · exact .inl hp
                  · right
                    rw [hoff'.2 _ (prefix_parent hp)]
                    exact h
              rw [linked_ready hrdy]
              refine ⟨fun r hr => ?_, fun e he => by simp [pure, Except.pure] at he⟩
              simp only [pure, Except.pure, Except.ok.injEq] at hr
              rw [← hr]
              exact ⟨by simp [endOf], put_congr hoff' _⟩
    · rw [if_neg hin, if_neg hin]
      refine ⟨fun r hr => ?_, fun e he => by simp at he⟩
      injection hr with hr
      rw [← hr]
      exact ⟨by simp [andThen, endOf], AgreeOff.refl _ _⟩
theorem cutter_steps (v : Doc.Env) (p : Path) : ∀ (i : Nat) (ns : List (Node Lab)) (s : Copies) (a : Att) (l : List (Node Att)),
    s.copy p = some (a, l) →
    (∀ ks, Doc.segList v ns = .ok ks → ∃ vs s', steps (cutter v) false p i (ofNodes ns) s = (.ok vs, s') ∧ AgreeOffL p i s' (putL s p ks)) ∧
    (∀ e, Doc.segList v ns = .error e → (steps (cutter v) false p i (ofNodes ns) s).1 = .fail e)
  | i, [], s, a, l, hs => by
    rw [Doc.segList, ofNodes, steps]
    refine ⟨fun ks hk => ?_, fun e he => by simp at he⟩
    injection hk with hk
    refine ⟨[], s, rfl, ?_⟩
    rw [← hk]
    simp only [putL, hs, List.append_nil]
    refine ⟨rfl, fun q _ => ?_⟩
    simp only [setAt]
    by_cases hq : q = p
    · rw [if_pos hq, hq, hs]
    · rw [if_neg hq]
  | i, n :: ns, s, a, l, hs => by
    have hrdy : Ready s (p ++ [i]) := by
      right
      rw [List.dropLast_concat, hs]; rfl
    obtain ⟨g1, g2⟩ := cutter_step v (p ++ [i]) n s hrdy
    rw [Doc.segList, ofNodes, steps]
    simp only [bind, Except.bind]
    rcases hst : step (cutter v) false (p ++ [i]) (ofNode n) s with ⟨o, s1⟩
    rw [hst] at g1 g2
    cases hn : Doc.segNode v n with
    | error e =>
      have g : o = .fail e := g2 e hn
      rw [g]
      refine ⟨fun ks hk => by simp at hk, fun e' he => ?_⟩
      simp only [Except.error.injEq] at he
      rw [he]
    | ok r =>
      obtain ⟨hnf, hag⟩ := g1 r hn
      have hput : put s (p ++ [i]) r = putL s p r.toList := by
        cases r with
        | none =>
          simp only [put, putL, hs, Option.toList, List.append_nil]
          cases s
          simp only [Copies.mk.injEq, and_true]
          funext q
          simp only [setAt]
          by_cases hq : q = p
          · rw [if_pos hq, hq]; exact hs
          · rw [if_neg hq]
        | some m =>
          have hne : p ++ [i] ≠ [] := by simp
          simp only [put, putL, hs, Option.toList]
          unfold link
          split
          · rename_i h; exact absurd h hne
          · simp only [List.dropLast_concat, hs, Option.getD_some]
      rw [hput] at hag
      have hs1 : s1.copy p = some (a, l ++ r.toList) := by
        have := hag.2 p (not_prefix_longer p i)
        simp only at this
        rw [this]
        simp only [putL, hs]
        exact setAt_self _ _ _
      obtain ⟨k1, k2⟩ := cutter_steps v p (i + 1) ns s1 a (l ++ r.toList) hs1
      have key : (∀ ks, Doc.segList v ns = .ok ks → ∃ vs s', steps (cutter v) false p (i + 1) (ofNodes ns) s1 = (.ok vs, s') ∧
          AgreeOffL p i s' (putL s p (r.toList ++ ks))) := by
        intro ks hk
        obtain ⟨vs, s', h1, h2, h3⟩ := k1 ks hk
        refine ⟨vs, s', h1, ?_, ?_⟩
        · rw [h2]
          simp only [putL, hs1, hs]
          exact hag.1.trans (by simp only [putL, hs])
        · intro q hq
          rw [h3 q (fun j hj => hq j (by omega))]
          simp only [putL, hs1, hs, setAt]
          by_cases hqp : q = p
          · rw [if_pos hqp, if_pos hqp, List.append_assoc]
          · rw [if_neg hqp, if_neg hqp]
            have := hag.2 q (hq i (Nat.le_refl _))
            simp only [putL, hs, setAt, if_neg hqp] at this
            exact this
      cases hks : Doc.segList v ns with
      | error e =>
        refine ⟨fun ks hk => by simp at hk, fun e' he => ?_⟩
        simp only [Except.error.injEq] at he
        have k := k2 e hks
        rcases hs2 : steps (cutter v) false p (i + 1) (ofNodes ns) s1 with ⟨o2, s2⟩
        rw [hs2] at k
        have k' : o2 = .fail e := k
        cases o with
        | ok u => simp only [hs2, k']; rw [he]; rfl
        | stop => simp only [hs2, k']; rw [he]
        | fail e => exact absurd rfl hnf
      | ok ks =>
        obtain ⟨vs, s', h1, h2⟩ := key ks hks
        refine ⟨fun ks' hk => ?_, fun e' he => by simp [pure, Except.pure] at he⟩
        simp only [pure, Except.pure, Except.ok.injEq] at hk
        rw [← hk]
        cases o with
        | ok u => exact ⟨_, s', by simp only; rw [h1]; rfl, h2⟩
        | stop => exact ⟨vs, s', by simp only; rw [h1], h2⟩
        | fail e => exact absurd rfl hnf
end

/-- C90, segmentation: the segmenter as the traversal runs it, building copies and linking them to the copies of their parents, gives
the segment of the model, none if that has none, and fails where it fails. -/
theorem C90_segment (v : Doc.Env) (body : Node Lab) :
    (∀ r, Doc.segNode v body = .ok r → endOf (proceed (cutter v) false (ofNode body) ⟨fun _ => none, none⟩).1 ≠ .failed ∧
      (proceed (cutter v) false (ofNode body) ⟨fun _ => none, none⟩).2.root = r) ∧
    ∀ e, Doc.segNode v body = .error e → (proceed (cutter v) false (ofNode body) ⟨fun _ => none, none⟩).1 = .fail e := by
  obtain ⟨h1, h2⟩ := cutter_step v [] body ⟨fun _ => none, none⟩ (.inl rfl)
  refine ⟨fun r hr => ?_, h2⟩
  obtain ⟨h3, h4⟩ := h1 r hr
  refine ⟨h3, ?_⟩
  unfold proceed
  rw [h4.1]
  cases r <;> rfl

/-- A body of two p, the second one after the window: the first one is kept, and the window is cut out of it. -/
def exCut : Node Lab :=
  .elem ⟨{ kind := .body }, ⟨0, none⟩⟩ [.elem ⟨{ kind := .div }, ⟨0, none⟩⟩
    [.elem ⟨{ kind := .p }, ⟨1000000, some 9000000⟩⟩ [.text ['a'], .br], .elem ⟨{ kind := .p }, ⟨9000000, none⟩⟩ [.text ['b']]]]

example : (match (proceed (cutter ⟨⟨some 2000000, some 5000000⟩, .media, Time.exactReader, none, some⟩) false (ofNode exCut) ⟨fun _ => none, none⟩).2.root with
    | some (.elem _ [.elem _ [.elem a [.text t, .br]]]) => (a.beg.map (·.delta), a.fin.map (·.delta), t)
    | _ => (none, none, [])) = (some 2000000, some 5000000, ['a']) := by decide +kernel

end Verif.Walk
