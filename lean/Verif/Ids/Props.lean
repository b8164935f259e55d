import Verif.Ids.Model

/-!
# Identifiers are unique and lookups agree (C51)
-/
namespace Verif.Ids

/-! ### Specification -/

mutual
/-- All elements of a tree in document order. -/
def objects : Tree → List Obj
  | .node o ks => o :: objectsL ks
def objectsL : List Tree → List Obj
  | [] => []
  | t :: ts => objects t ++ objectsL ts
end

/-- The identifier an element is known by. -/
def idOf (o : Obj) : Option String := if o.kind = .other then none else o.id

/-! ### Registration over the list of elements -/

/-- Registering elements one after the other. -/
def registerAll (d : Dict) : List Obj → Bool × Dict
  | [] => (true, d)
  | o :: os =>
    match register d o with
    | (false, d) => (false, d)
    | (true, d) => registerAll d os

theorem registerAll_append (a b : List Obj) (d : Dict) :
    registerAll d (a ++ b) =
      match registerAll d a with
      | (false, d) => (false, d)
      | (true, d) => registerAll d b := by
  induction a generalizing d with
  | nil => rfl
  | cons o os ih =>
    simp only [List.cons_append, registerAll]
    generalize register d o = r
    obtain ⟨x, d'⟩ := r
    cases x
    · rfl
    · exact ih d'

mutual
theorem visit_eq : ∀ (t : Tree) (d : Dict), visit d t = registerAll d (objects t)
  | .node o ks, d => by
    simp only [visit, objects, registerAll]
    generalize register d o = r
    obtain ⟨x, d'⟩ := r
    cases x
    · rfl
    · exact visitL_eq ks d'
theorem visitL_eq : ∀ (ts : List Tree) (d : Dict), visitL d ts = registerAll d (objectsL ts)
  | [], d => rfl
  | t :: ts, d => by
    simp only [visitL, objectsL, registerAll_append, visit_eq t d]
    generalize registerAll d (objects t) = r
    obtain ⟨x, d'⟩ := r
    cases x
    · rfl
    · exact visitL_eq ts d'
end

theorem lookup_none {d : Dict} {i : String} : d.lookup i = none ↔ i ∉ d.map (·.1) := by
  induction d with
  | nil => simp
  | cons p l ih =>
    obtain ⟨x, o⟩ := p
    rw [List.lookup_cons]
    cases h : i == x with
    | true => have := beq_iff_eq.mp h; subst this; simp
    | false =>
      have hne : i ≠ x := by intro e; subst e; simp at h
      simp [ih, hne]

theorem lookup_some {d : Dict} (hn : (d.map (·.1)).Nodup) {i : String} {o : Obj} : d.lookup i = some o ↔ (i, o) ∈ d := by
  induction d with
  | nil => simp
  | cons p l ih =>
    obtain ⟨x, q⟩ := p
    rw [List.map_cons, List.nodup_cons] at hn
    rw [List.lookup_cons]
    cases h : i == x with
    | true =>
      have := beq_iff_eq.mp h
      subst this
      simp only [Option.some.injEq, List.mem_cons, Prod.mk.injEq, true_and]
      constructor
      · rintro rfl; exact .inl rfl
      · rintro (rfl | hm)
        · rfl
        · exact absurd (List.mem_map_of_mem (f := (·.1)) hm) hn.1
    | false =>
      have hne : i ≠ x := by intro e; subst e; simp at h
      simp [ih hn.2, hne]

/-- The dictionary entries of a list of elements. -/
def entries (os : List Obj) : Dict := os.filterMap (fun o => (idOf o).map (fun i => (i, o)))

theorem entries_keys (os : List Obj) : (entries os).map (·.1) = os.filterMap idOf := by
  induction os with
  | nil => rfl
  | cons o os ih =>
    unfold entries at ih ⊢
    cases h : idOf o <;> simp [h, ih]

theorem register_eq (d : Dict) (o : Obj) : register d o =
    match idOf o with
    | none => (true, d)
    | some i => if i ∈ d.map (·.1) then (false, d) else (true, d ++ [(i, o)]) := by
  unfold register idOf
  split
  · rfl
  · cases o.id with
    | none => rfl
    | some i =>
      simp only
      cases h : d.lookup i with
      | none => simp [lookup_none.mp h]
      | some x =>
        have : i ∈ d.map (·.1) := by
          rcases Classical.em (i ∈ d.map (·.1)) with h' | h'
          · exact h'
          · rw [lookup_none.mpr h'] at h; cases h
        simp only [Option.isSome_some, if_true, if_pos this]

/-- Registration succeeds exactly if no id is taken twice, and then every element is entered. -/
theorem registerAll_ok (os : List Obj) (d : Dict) (hd : (d.map (·.1)).Nodup) :
    ((registerAll d os).1 = true ↔ (d.map (·.1) ++ os.filterMap idOf).Nodup) ∧
    ((registerAll d os).1 = true → (registerAll d os).2 = d ++ entries os) := by
  induction os generalizing d with
  | nil => simp [registerAll, entries, hd]
  | cons o os ih =>
    simp only [registerAll, register_eq]
    cases hi : idOf o with
    | none =>
      have e : entries (o :: os) = entries os := by simp [entries, hi]
      rw [List.filterMap_cons_none hi, e]
      exact ih d hd
    | some i =>
      have e : entries (o :: os) = (i, o) :: entries os := by simp [entries, hi]
      rw [List.filterMap_cons_some hi, e]
      simp only
      by_cases hm : i ∈ d.map (·.1)
      · rw [if_pos hm]
        simp only [Bool.false_eq_true, false_iff, false_implies, and_true]
        intro hnd
        exact (List.nodup_append.mp hnd).2.2 i hm i List.mem_cons_self rfl
      · rw [if_neg hm]
        simp only
        have hd' : ((d ++ [(i, o)]).map (·.1)).Nodup := by
          rw [List.map_append, List.nodup_append]
          refine ⟨hd, by simp, ?_⟩
          intro a ha b hb
          simp only [List.map_cons, List.map_nil, List.mem_singleton] at hb
          rw [hb]; rintro rfl; exact hm ha
        obtain ⟨i1, i2⟩ := ih (d ++ [(i, o)]) hd'
        constructor
        · rw [i1]; simp
        · intro h; rw [i2 h]; simp

theorem mem_entries {os : List Obj} {i : String} {o : Obj} : (i, o) ∈ entries os ↔ o ∈ os ∧ idOf o = some i := by
  unfold entries
  simp only [List.mem_filterMap, Option.map_eq_some_iff, Prod.mk.injEq]
  constructor
  · rintro ⟨a, ha, j, hj, rfl, rfl⟩; exact ⟨ha, hj⟩
  · rintro ⟨ha, hj⟩; exact ⟨o, ha, i, hj, rfl, rfl⟩

/-! ### C51 -/

/-- **C51, uniqueness.** Registration lets a document pass exactly if no two of its styles, regions,
divs, ps and spans have the same `xml:id`. -/
theorem C51_unique (t : Doc) : t.validate.1 = true ↔ ((objects t.tree).filterMap idOf).Nodup := by
  unfold Doc.validate
  simp only [visit_eq]
  have := (registerAll_ok (objects t.tree) [] (by simp)).1
  simpa using this

/-- Two different places in a document that passed cannot hold the same id. -/
theorem C51_no_sharing (t : Doc) (h : t.validate.1 = true) (a b c : List Obj) (x y : Obj) (i : String)
    (hs : objects t.tree = a ++ x :: b ++ y :: c) (hx : idOf x = some i) : idOf y ≠ some i := by
  intro hy
  rw [C51_unique, hs] at h
  simp only [List.filterMap_append, List.filterMap_cons, hx, hy] at h
  exact (List.nodup_append.mp h).2.2 i (by simp) i (by simp) rfl

/-- **C51, lookup.** After a validation that succeeded, looking up an id gives an element exactly if it
is an element of the document with that id and of the type asked for; otherwise it raises `LookupError`. -/
theorem C51_lookup (t : Doc) (h : t.validate.1 = true) (i : String) (k : Option Kind) (o : Obj) :
    (t.validate.2.get i k = .element o ↔
      o ∈ objects t.tree ∧ idOf o = some i ∧ ∀ k', k = some k' → o.kind = k') ∧
    (t.validate.2.get i k = .missing ↔
      ∀ o ∈ objects t.tree, idOf o = some i → ∃ k', k = some k' ∧ o.kind ≠ k') := by
  have hn := (C51_unique t).mp h
  have hd : (visit [] t.tree).2 = entries (objects t.tree) := by
    unfold Doc.validate at h
    simp only [visit_eq] at h ⊢
    have := (registerAll_ok (objects t.tree) [] (by simp)).2 h
    simpa using this
  have hkeys : ((entries (objects t.tree)).map (·.1)).Nodup := by rw [entries_keys]; exact hn
  have hget : t.validate.2.get i k = match (entries (objects t.tree)).lookup i with
      | none => .missing
      | some o => match k with
        | none => .element o
        | some k => if o.kind = k then .element o else .missing := by
    unfold Doc.validate Doc.get
    simp only [hd]
    rfl
  rw [hget]
  cases hl : (entries (objects t.tree)).lookup i with
  | none =>
    have hno : ∀ o, ¬ (o ∈ objects t.tree ∧ idOf o = some i) := by
      intro o ho
      have := (lookup_some hkeys).mpr (mem_entries.mpr ho)
      rw [hl] at this; cases this
    simp only [reduceCtorEq, false_iff, true_iff]
    exact ⟨fun ⟨h1, h2, _⟩ => hno o ⟨h1, h2⟩, fun o h1 h2 => absurd ⟨h1, h2⟩ (hno o)⟩
  | some x =>
    have hx := mem_entries.mp ((lookup_some hkeys).mp hl)
    have huniq : ∀ o, o ∈ objects t.tree → idOf o = some i → o = x := by
      intro o h1 h2
      have := (lookup_some hkeys).mpr (mem_entries.mpr ⟨h1, h2⟩)
      rw [hl] at this; cases this; rfl
    cases k with
    | none =>
      simp only [Found.element.injEq, reduceCtorEq, false_implies, implies_true, and_true, false_and, exists_false, imp_false]
      constructor
      · constructor
        · rintro rfl; exact hx
        · rintro ⟨h1, h2⟩; exact (huniq o h1 h2).symm
      · simp only [false_iff]
        intro hh; exact hh x hx.1 hx.2
    | some k =>
      simp only [Option.some.injEq, forall_eq', exists_eq_left']
      by_cases hk : x.kind = k
      · rw [if_pos hk]
        simp only [Found.element.injEq, reduceCtorEq, false_iff]
        constructor
        · constructor
          · rintro rfl; exact ⟨hx.1, hx.2, hk⟩
          · rintro ⟨h1, h2, _⟩; exact (huniq o h1 h2).symm
        · intro hh; exact hh x hx.1 hx.2 hk
      · rw [if_neg hk]
        simp only [reduceCtorEq, false_iff, true_iff]
        constructor
        · rintro ⟨h1, h2, h3⟩
          rw [huniq o h1 h2] at h3; exact hk h3
        · intro o h1 h2; rw [huniq o h1 h2]; exact hk

/-- Before the first validation a lookup asks for one. -/
theorem C51_before (tree : Tree) (i : String) (k : Option Kind) : Doc.get ⟨tree, none⟩ i k = .notValidated := rfl

/-- A small document: two styles, a region, a div without id, a p with two spans, and a metadata element. -/
def exDoc : Doc :=
  ⟨.node ⟨0, .other, none⟩
    [.node ⟨1, .other, none⟩ [.node ⟨2, .other, some "m"⟩ [], .node ⟨3, .style, some "s1"⟩ [], .node ⟨4, .style, some "s2"⟩ [],
      .node ⟨5, .region, some "r1"⟩ []],
     .node ⟨6, .other, none⟩ [.node ⟨7, .div, none⟩ [.node ⟨8, .p, some "p1"⟩ [.node ⟨9, .span, some "m"⟩ [], .node ⟨10, .span, none⟩ []]]]],
   none⟩

example : exDoc.validate.1 = true ∧ exDoc.validate.2.get "p1" none = .element ⟨8, .p, some "p1"⟩ ∧
    exDoc.validate.2.get "r1" (some .region) = .element ⟨5, .region, some "r1"⟩ ∧
    exDoc.validate.2.get "r1" (some .style) = .missing ∧ exDoc.validate.2.get "x" none = .missing := by decide +kernel

/-- Metadata elements are not looked at: one may have the id of a span, and it cannot be found. -/
theorem C51_false_metadata : exDoc.validate.1 = true ∧
    ∃ a b, a ∈ objects exDoc.tree ∧ b ∈ objects exDoc.tree ∧ a.uid ≠ b.uid ∧ a.id = some "m" ∧ b.id = some "m" ∧
      exDoc.validate.2.get "m" none = .element b :=
  ⟨by decide +kernel, ⟨2, .other, some "m"⟩, ⟨9, .span, some "m"⟩, by decide +kernel⟩

/-- After a validation that failed, lookups answer from what had been entered before the failure. -/
theorem C51_false_after_failure :
    let t : Doc := ⟨.node ⟨0, .other, none⟩ [.node ⟨1, .p, some "a"⟩ [], .node ⟨2, .p, some "a"⟩ [], .node ⟨3, .p, some "b"⟩ []], none⟩
    t.validate.1 = false ∧ t.validate.2.get "a" none = .element ⟨1, .p, some "a"⟩ ∧ t.validate.2.get "b" none = .missing := by
  decide +kernel

end Verif.Ids
