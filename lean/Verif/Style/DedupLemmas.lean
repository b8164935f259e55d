import Verif.Style.Dedup

/-! Lemmas: what the presentation of a document depends on when styles do not refer to styles. -/
namespace Verif.Style

open Verif.Doc (Node Att Kind Reach)
open Verif.Dedup (DElem DUse DDoc Ref found look regionLook useLook keepFirst)

/-! ### Resolving references when no style refers to another -/

theorem flat_loop {sh : Sheet} (hf : ∀ s ∈ sh, s.2 = []) (n : Nat) : ∀ (refs : List Name) (c : Cache) (acc : List Name),
    (∀ id l, c.get id = some l → l = [id]) → (∀ r ∈ refs, (find sh r).isSome = true) →
    (refsLoop (visit sh (n + 1) []) c refs acc).1 = .ok (addNew acc refs)
  | [], c, acc, _, _ => rfl
  | r :: rs, c, acc, hc, hr => by
    obtain ⟨l, hl⟩ := Option.isSome_iff_exists.1 (hr r List.mem_cons_self)
    have hl0 : l = [] := by
      unfold find at hl
      rw [Option.map_eq_some_iff] at hl
      obtain ⟨s, hs, he⟩ := hl
      rw [← he]
      exact hf s (List.mem_of_find?_eq_some hs)
    subst hl0
    have hstep : ∃ c', visit sh (n + 1) [] c r = (.ok [r], c') ∧ ∀ id l, c'.get id = some l → l = [id] := by
      rw [visit, hl]
      simp only [List.not_mem_nil, if_false]
      cases hg : c.get r with
      | some l =>
        simp only
        rw [hc r l hg]
        exact ⟨c, rfl, hc⟩
      | none =>
        simp only [refsLoop]
        refine ⟨_, rfl, ?_⟩
        intro id l h
        unfold Cache.get at h
        rw [List.find?_cons] at h
        by_cases he : r = id
        · subst he; simpa using h.symm
        · simp only [he, decide_false] at h
          exact hc id l h
    obtain ⟨c', hv, hc'⟩ := hstep
    rw [refsLoop, hv]
    simp only
    rw [flat_loop hf n rs c' _ hc' (fun x hx => hr x (List.mem_cons_of_mem _ hx))]
    congr 1
    simp only [addNew]
    by_cases h : r ∈ acc <;> simp [h]

theorem flat_refStyles {hd : Head} (hf : ∀ s ∈ hd.sheet, s.2 = []) {refs : List Name} (hr : ∀ r ∈ refs, (find hd.sheet r).isSome = true) :
    refStyles hd refs = .ok (addNew [] refs) := by
  unfold refStyles collect
  rw [flat_loop hf _ refs [] [] (by intro id l h; simp [Cache.get] at h) hr]

theorem spec_ext {a b : Specified} (h1 : ∀ x, a.simple x = b.simple x) (h2 : ∀ x, a.inh x = b.inh x) (h3 : a.fs = b.fs) (h4 : a.lh = b.lh) :
    a = b := by
  cases a; cases b
  simp only [Specified.mk.injEq]
  exact ⟨funext h1, funext h2, h3, h4⟩

theorem findSome_keepFirst {α β : Type} [DecidableEq α] (f : α → Option β) : ∀ l : List α, (keepFirst l).findSome? f = l.findSome? f
  | [] => rfl
  | x :: l => by
    rw [keepFirst, List.findSome?_cons, List.findSome?_cons]
    cases hx : f x with
    | some v => rfl
    | none =>
      simp only
      rw [← findSome_keepFirst f l]
      generalize keepFirst l = m
      induction m with
      | nil => rfl
      | cons y m ih =>
        rw [List.filter_cons]
        by_cases hy : y = x
        · subst hy
          simp only [ne_eq, not_true, decide_false, Bool.false_eq_true, if_false, List.findSome?_cons, hx]
          exact ih
        · simp only [ne_eq, hy, not_false_eq_true, decide_true, if_true, List.findSome?_cons]
          cases f y with
          | some v => rfl
          | none => exact ih

/-- What a list of references specifies depends only on what the references stand for, the first of equals counting. -/
theorem resolve_same {own own' : Name → Specified} {L : Type} [DecidableEq L] (m : L → Specified) (lk lk' : Name → L) {refs refs' : List Name}
    (ho : ∀ r ∈ refs, own r = m (lk r)) (ho' : ∀ r ∈ refs', own' r = m (lk' r)) (hl : refs'.map lk' = keepFirst (refs.map lk) ∨ refs'.map lk' = refs.map lk) :
    resolve own' (addNew [] refs') = resolve own (addNew [] refs) := by
  have key : ∀ {β : Type} (f : Specified → Option β),
      (addNew [] refs').findSome? (fun n => f (own' n)) = (addNew [] refs).findSome? (fun n => f (own n)) := by
    intro β f
    simp only [findSome_addNew, List.findSome?_nil, Option.none_or]
    have conv : ∀ (rs : List Name) (o : Name → Specified) (k : Name → L), (∀ r ∈ rs, o r = m (k r)) →
        rs.findSome? (fun n => f (o n)) = (rs.map k).findSome? (fun v => f (m v)) := by
      intro rs o k h
      rw [List.findSome?_map]
      induction rs with
      | nil => rfl
      | cons r rs ih =>
        rw [List.findSome?_cons, List.findSome?_cons, ih (fun x hx => h x (List.mem_cons_of_mem _ hx)), h r List.mem_cons_self]
        rfl
    rw [conv refs' own' lk' ho', conv refs own lk ho]
    rcases hl with hl | hl
    · rw [hl, findSome_keepFirst]
    · rw [hl]
  apply spec_ext
  · intro x; simp only [resolve, add_resolve_simple, key (fun s => s.simple x)]
  · intro x; simp only [resolve, add_resolve, key (fun s => s.inh x)]
  · simp only [resolve, add_resolve_fs, key (fun s => s.fs)]
  · simp only [resolve, add_resolve_lh, key (fun s => s.lh)]

/-! ### The head of a document and the look of its references -/

theorem toList_inj {a b : String} : a.toList = b.toList ↔ a = b := String.toList_inj

theorem nameOf_refOf (x : Name) : nameOf (refOf x) = x := by simp [nameOf, refOf]

theorem refOf_nameOf (x : String) : refOf (nameOf (some x)) = some x := by simp [nameOf, refOf]

theorem find_sheet {mean : List (Option Val) → Specified} {pad : List (Option Val) → Option Val} {g : Geometry} (w : Whole) (x : Name) :
    (find (w.head mean pad g).sheet x).isSome = (found w.styles (refOf x)).isSome := by
  have : ∀ l : List DElem, (find (l.map (fun s => (s.id.toList, s.refs.map nameOf))) x).isSome =
      (l.find? (fun e => decide (e.id = String.ofList x))).isSome := by
    intro l
    unfold find
    induction l with
    | nil => rfl
    | cons e l ih =>
      have : (e.id.toList = x) ↔ e.id = String.ofList x := by
        rw [← toList_inj, String.toList_ofList]
      rw [List.map_cons, List.find?_cons, List.find?_cons]
      by_cases h : e.id = String.ofList x
      · simp [h]
      · have h' : ¬ e.id.toList = x := fun hh => h (this.1 hh)
        simp only [h, h', decide_false]
        exact ih
  exact this w.styles

theorem find_style (w : Whole) (x : Name) : w.styles.find? (fun s => decide (s.id.toList = x)) = found w.styles (refOf x) := by
  show _ = w.styles.find? (fun e => decide (e.id = String.ofList x))
  congr 1
  funext e
  have : (e.id.toList = x) ↔ e.id = String.ofList x := by
    rw [← toList_inj, String.toList_ofList]
  simp [this]

/-- The style a reference stands for. -/
theorem own_look {mean : List (Option Val) → Specified} {pad : List (Option Val) → Option Val} {g : Geometry} (w : Whole) (x : Name) :
    (w.head mean pad g).own x = ((look w.seen (refOf x)).map mean).getD {} := by
  show ((w.styles.find? (fun s => decide (s.id.toList = x))).map (fun s => mean s.vals)).getD {} = _
  rw [find_style]
  show _ = (((found w.styles (refOf x)).map DElem.vals).map mean).getD {}
  rw [Option.map_map]
  rfl

end Verif.Style
