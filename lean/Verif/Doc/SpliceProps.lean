import Verif.Doc.Splice
import Verif.Doc.SegmentProps

/-! Theorems about splicing segments into one document: C27. -/
namespace Verif.Doc

/-! ### Specification -/

mutual
/-- Content without identifiers. -/
def plain : Node Att → Node Att
  | .text s => .text s
  | .br => .br
  | .elem a kids => .elem { a with id := none } (plainL kids)
def plainL : List (Node Att) → List (Node Att)
  | [] => []
  | k :: ks => plain k :: plainL ks
end

/-- All identifiers of a document: styles, regions and the content of the body. -/
def SDoc.ids (d : SDoc) : List Name :=
  d.styles.getD [] ++ d.regions.getD [] ++ idsOfL Att.id (contentOf d.body)

/-- Made by a segment extraction from the document with sequence number `n`: every identifier carries
that number. -/
def SDoc.Prefixed (d : SDoc) (n : Nat) : Prop := ∀ x ∈ d.ids, ∃ y, x = seqPrefix n y

/-! ### The new identifiers -/

theorem le_sum_of_mem {n : Nat} : ∀ {l : List Nat}, n ∈ l → n ≤ l.sum
  | m :: l, h => by
    simp only [List.mem_cons] at h
    rcases h with h | h
    · simp; omega
    · have := le_sum_of_mem h; simp; omega

theorem tryNames_free (ids : List Name) : ∀ (f : Nat) (x : Name),
    (ids.map List.length).sum < x.length + 2 * f → tryNames ids f x ∉ ids
  | 0, x, h => by
    intro hm
    have := le_sum_of_mem (List.mem_map_of_mem (f := List.length) hm)
    simp only [tryNames] at this
    omega
  | f + 1, x, h => by
    unfold tryNames
    by_cases hx : ids.contains x = true
    · rw [if_pos hx]
      apply tryNames_free
      simp [dotOne]
      omega
    · rw [if_neg hx]
      simpa using hx

/-- The renaming loop ends with an unused identifier. -/
theorem free_spec (ids : List Name) (x : Name) : free ids x ∉ ids :=
  tryNames_free ids _ x (by omega)

theorem free_eq {ids : List Name} {x : Name} (h : x ∉ ids) : free ids x = x := by
  unfold free tryNames
  simp [h]

theorem tryNames_pre (ids : List Name) (n : Nat) : ∀ (f : Nat) (x : Name), (∃ y, x = seqPrefix n y) →
    ∃ y, tryNames ids f x = seqPrefix n y
  | 0, _, h => h
  | f + 1, x, ⟨y, hy⟩ => by
    unfold tryNames
    split
    · exact tryNames_pre ids n f _ ⟨dotOne y, by simp [hy, dotOne, seqPrefix]⟩
    · exact ⟨y, hy⟩

mutual
theorem renameNode_plain (ids : List Name) : ∀ (n : Node Att), plain (renameNode ids n).2 = plain n
  | .text s => rfl
  | .br => rfl
  | .elem a kids => by
    unfold renameNode
    have h := renameList_plain ids kids
    cases a.id with
    | none => simp [plain, h]
    | some x => simp [plain, h]
theorem renameList_plain : ∀ (ids : List Name) (ns : List (Node Att)), plainL (renameList ids ns).2 = plainL ns
  | _, [] => rfl
  | ids, k :: ks => by
    rw [renameList, plainL, plainL, renameNode_plain ids k, renameList_plain _ ks]
end

/-- What a renaming pass establishes about identifiers. -/
structure Renamed (ids ids' out : List Name) : Prop where
  nodup : out.Nodup
  fresh : ∀ x ∈ out, x ∉ ids
  mem : ∀ x, x ∈ ids' ↔ x ∈ ids ∨ x ∈ out

mutual
theorem renameNode_ids (ids : List Name) : ∀ (n : Node Att),
    Renamed ids (renameNode ids n).1 (idsOf Att.id (renameNode ids n).2)
  | .text s => ⟨by simp [renameNode, idsOf], by simp [renameNode, idsOf], by simp [renameNode, idsOf]⟩
  | .br => ⟨by simp [renameNode, idsOf], by simp [renameNode, idsOf], by simp [renameNode, idsOf]⟩
  | .elem a kids => by
    have h := renameList_ids ids kids
    unfold renameNode
    cases ha : a.id with
    | none => exact ⟨by simpa [idsOf, ha] using h.nodup, by simpa [idsOf, ha] using h.fresh, by simpa [idsOf, ha] using h.mem⟩
    | some x =>
      have hf := free_spec (renameList ids kids).1 x
      rw [h.mem] at hf
      refine ⟨?_, ?_, ?_⟩
      · simp only [idsOf, Option.toList, List.singleton_append, List.nodup_cons]
        exact ⟨fun hm => hf (.inr hm), h.nodup⟩
      · intro y hy
        simp only [idsOf, Option.toList, List.singleton_append, List.mem_cons] at hy
        rcases hy with hy | hy
        · rw [hy]; exact fun hm => hf (.inl hm)
        · exact h.fresh y hy
      · intro y
        simp only [idsOf, Option.toList, List.singleton_append, List.mem_cons, h.mem]
        grind
theorem renameList_ids : ∀ (ids : List Name) (ns : List (Node Att)),
    Renamed ids (renameList ids ns).1 (idsOfL Att.id (renameList ids ns).2)
  | _, [] => ⟨by simp [renameList, idsOfL], by simp [renameList, idsOfL], by simp [renameList, idsOfL]⟩
  | ids, k :: ks => by
    have h1 := renameNode_ids ids k
    have h2 := renameList_ids (renameNode ids k).1 ks
    rw [renameList]
    refine ⟨?_, ?_, ?_⟩
    · rw [idsOfL, List.nodup_append]
      refine ⟨h1.nodup, h2.nodup, ?_⟩
      rintro x hx y hy rfl
      exact h2.fresh x hy ((h1.mem x).mpr (.inr hx))
    · intro x hx
      rw [idsOfL, List.mem_append] at hx
      rcases hx with hx | hx
      · exact h1.fresh x hx
      · exact fun hm => h2.fresh x hx ((h1.mem x).mpr (.inl hm))
    · intro x
      rw [idsOfL, List.mem_append, h2.mem, h1.mem]
      grind
end

theorem idsOfL_append (a b : List (Node Att)) : idsOfL Att.id (a ++ b) = idsOfL Att.id a ++ idsOfL Att.id b := by
  induction a with
  | nil => rfl
  | cons k ks ih => simp [idsOfL, ih]

theorem plainL_append (a b : List (Node Att)) : plainL (a ++ b) = plainL a ++ plainL b := by
  induction a with
  | nil => rfl
  | cons k ks ih => simp [plainL, ih]

theorem contentOf_elem (a : Att) (kids : List (Node Att)) : contentOf (.elem a kids) = kids := rfl

/-- The identifiers of a merged body. -/
theorem mergeBody_ids (ids : List Name) (a b : Node Att) :
    Renamed ids (mergeBody ids a b).1 (idsOfL Att.id (contentOf (mergeBody ids a b).2)) := by
  have h1 := renameList_ids ids (contentOf a)
  have h2 := renameList_ids (renameList ids (contentOf a)).1 (contentOf b)
  rw [mergeBody, contentOf_elem, idsOfL_append]
  refine ⟨?_, ?_, ?_⟩
  · rw [List.nodup_append]
    refine ⟨h1.nodup, h2.nodup, ?_⟩
    rintro x hx y hy rfl
    exact h2.fresh x hy ((h1.mem x).mpr (.inr hx))
  · intro x hx
    rw [List.mem_append] at hx
    rcases hx with hx | hx
    · exact h1.fresh x hx
    · exact fun hm => h2.fresh x hx ((h1.mem x).mpr (.inl hm))
  · intro x
    rw [List.mem_append, h2.mem, h1.mem]
    grind

theorem mergeBody_plain (ids : List Name) (a b : Node Att) :
    plainL (contentOf (mergeBody ids a b).2) = plainL (contentOf a) ++ plainL (contentOf b) := by
  rw [mergeBody, contentOf_elem, plainL_append, renameList_plain, renameList_plain]

theorem fold_plain : ∀ (ds : List SDoc) (st : List Name × SDoc),
    plainL (contentOf (ds.foldl mergeDoc st).2.body) =
      plainL (contentOf st.2.body) ++ (ds.map (fun d => plainL (contentOf d.body))).flatten
  | [], st => by simp
  | d :: ds, st => by
    rw [List.foldl_cons, fold_plain ds, List.map_cons, List.flatten_cons, ← List.append_assoc]
    congr 1
    exact mergeBody_plain _ _ _

/-- C27, content.  The spliced document's body has the content of the segments one after the other:
the same elements, attributes, text and line breaks, apart from identifiers. -/
theorem C27_content_in_order (segs : List SDoc) (out : SDoc) (h : splice segs = some out) :
    plainL (contentOf out.body) = (segs.map (fun d => plainL (contentOf d.body))).flatten := by
  cases segs with
  | nil => simp [splice] at h
  | cons d ds =>
    simp only [splice, Option.some.injEq] at h
    rw [← h, fold_plain]
    rfl

/-- C27, identifiers.  When at least two segments are spliced no identifier occurs twice in the body of
the result, whatever identifiers the segments had.  A single segment is returned as it is. -/
theorem C27_body_identifiers_unique (segs : List SDoc) (out : SDoc) (h : splice segs = some out) :
    (2 ≤ segs.length → (idsOfL Att.id (contentOf out.body)).Nodup) ∧
    (∀ d, segs = [d] → out = d) := by
  cases segs with
  | nil => simp [splice] at h
  | cons d ds =>
    simp only [splice, Option.some.injEq] at h
    refine ⟨?_, ?_⟩
    · intro hl
      have hne : ds ≠ [] := by rintro rfl; simp at hl
      rw [← h]
      obtain ⟨init, last, rfl⟩ : ∃ init last, ds = init ++ [last] := ⟨_, _, (List.dropLast_concat_getLast hne).symm⟩
      rw [List.foldl_append]
      exact (mergeBody_ids _ _ _).nodup
    · intro d' hd
      injection hd with h1 h2
      subst h1 h2
      exact h.symm

/-! ### Documents with prefixed identifiers -/

theorem tryNames_closed {P : Name → Prop} (hP : ∀ x, P x → P (dotOne x)) (ids : List Name) :
    ∀ (f : Nat) (x : Name), P x → P (tryNames ids f x)
  | 0, _, h => h
  | f + 1, x, h => by
    unfold tryNames
    split
    · exact tryNames_closed hP ids f _ (hP x h)
    · exact h

mutual
theorem renameNode_closed {P : Name → Prop} (hP : ∀ x, P x → P (dotOne x)) (ids : List Name) : ∀ (n : Node Att),
    (∀ x ∈ idsOf Att.id n, P x) → ∀ x ∈ idsOf Att.id (renameNode ids n).2, P x
  | .text s, _ => by simp [renameNode, idsOf]
  | .br, _ => by simp [renameNode, idsOf]
  | .elem a kids, h => by
    simp only [idsOf, List.mem_append] at h
    have hk := renameList_closed hP ids kids (fun x hx => h x (.inr hx))
    unfold renameNode
    cases ha : a.id with
    | none => simpa [idsOf, ha] using hk
    | some y =>
      intro x hx
      simp only [idsOf, Option.toList, List.singleton_append, List.mem_cons] at hx
      rcases hx with hx | hx
      · rw [hx]; exact tryNames_closed hP _ _ _ (h y (.inl (by simp [ha])))
      · exact hk x hx
theorem renameList_closed {P : Name → Prop} (hP : ∀ x, P x → P (dotOne x)) : ∀ (ids : List Name) (ns : List (Node Att)),
    (∀ x ∈ idsOfL Att.id ns, P x) → ∀ x ∈ idsOfL Att.id (renameList ids ns).2, P x
  | _, [], _ => by simp [renameList, idsOfL]
  | ids, k :: ks, h => by
    simp only [idsOfL, List.mem_append] at h
    intro x hx
    rw [renameList, idsOfL, List.mem_append] at hx
    rcases hx with hx | hx
    · exact renameNode_closed hP ids k (fun y hy => h y (.inl hy)) x hx
    · exact renameList_closed hP _ ks (fun y hy => h y (.inr hy)) x hx
end

mutual
theorem renameNode_same (ids : List Name) : ∀ (n : Node Att), (idsOf Att.id n).Nodup → (∀ x ∈ idsOf Att.id n, x ∉ ids) →
    (renameNode ids n).2 = n
  | .text s, _, _ => rfl
  | .br, _, _ => rfl
  | .elem a kids, hn, hd => by
    simp only [idsOf, List.nodup_append] at hn
    simp only [idsOf, List.mem_append] at hd
    have hk := renameList_same ids kids hn.2.1 (fun x hx => hd x (.inr hx))
    have hi := renameList_ids ids kids
    unfold renameNode
    cases ha : a.id with
    | none => simp [hk]
    | some y =>
      have hy : y ∉ (renameList ids kids).1 := by
        rw [hi.mem, hk]
        rintro (h | h)
        · exact hd y (.inl (by simp [ha])) h
        · exact hn.2.2 y (by simp [ha]) y h rfl
      simp only [free_eq hy, hk]
      rw [← ha]
theorem renameList_same : ∀ (ids : List Name) (ns : List (Node Att)), (idsOfL Att.id ns).Nodup →
    (∀ x ∈ idsOfL Att.id ns, x ∉ ids) → (renameList ids ns).2 = ns
  | _, [], _, _ => rfl
  | ids, k :: ks, hn, hd => by
    simp only [idsOfL, List.nodup_append] at hn
    simp only [idsOfL, List.mem_append] at hd
    have h1 := renameNode_same ids k hn.1 (fun x hx => hd x (.inl hx))
    have hi := renameNode_ids ids k
    rw [renameList, h1, renameList_same _ ks hn.2.1]
    intro x hx
    rw [hi.mem, h1]
    rintro (h | h)
    · exact hd x (.inr hx) h
    · exact hn.2.2 x h x hx rfl
end

theorem renameRegions_same {ids : List Name} : ∀ {xs : List Name}, (∀ x ∈ xs, x ∉ ids) → renameRegions ids xs = (ids, xs)
  | [], _ => rfl
  | x :: xs, h => by
    have ih := renameRegions_same (ids := ids) (xs := xs) (fun y hy => h y (List.mem_cons_of_mem _ hy))
    have hx := h x List.mem_cons_self
    rw [renameRegions, if_neg (by simpa using hx), ih]

theorem mergeStyling_same {ids : List Name} {a b : Option (List Name)}
    (h : ∀ x ∈ b.getD [], x ∉ a.getD [] ∧ x ∉ ids) :
    (mergeStyling ids a b).2.getD [] = a.getD [] ++ b.getD [] ∧
      ∀ x, x ∈ (mergeStyling ids a b).1 ↔ x ∈ ids ∨ x ∈ a.getD [] := by
  cases a with
  | none => simp [mergeStyling]
  | some a =>
    refine ⟨?_, fun x => by simp [mergeStyling]; grind⟩
    simp only [mergeStyling, Option.getD_some]
    congr 1
    conv => rhs; rw [← List.map_id (b.getD [])]
    apply List.map_congr_left
    intro x hx
    have := h x hx
    simp only [Option.getD_some] at this
    simp [this.1, this.2]

theorem mergeLayout_same {ids : List Name} {a b : Option (List Name)}
    (h : ∀ x ∈ b.getD [], x ∉ a.getD [] ∧ x ∉ ids) :
    (mergeLayout ids a b).2.getD [] = a.getD [] ++ b.getD [] ∧
      ∀ x, x ∈ (mergeLayout ids a b).1 ↔ x ∈ ids ∨ x ∈ a.getD [] := by
  cases a with
  | none => simp [mergeLayout]
  | some a =>
    have hs : renameRegions (a ++ ids) (b.getD []) = (a ++ ids, b.getD []) := by
      apply renameRegions_same
      intro x hx
      have := h x hx
      simpa using this
    refine ⟨?_, fun x => by simp [mergeLayout, hs]; grind⟩
    simp [mergeLayout, hs]

/-- Carries the number of one of the documents in `ns`. -/
def Owned (ns : List Nat) (x : Name) : Prop := ∃ n ∈ ns, ∃ y, x = seqPrefix n y

theorem Owned.dotOne {ns : List Nat} {x : Name} (h : Owned ns x) : Owned ns (Doc.dotOne x) := by
  obtain ⟨n, hn, y, rfl⟩ := h
  exact ⟨n, hn, Doc.dotOne y, by simp [Doc.dotOne, seqPrefix]⟩

theorem Owned.ne {ns : List Nat} {x : Name} (h : Owned ns x) {n : Nat} (hn : n ∉ ns) {y : Name} : x ≠ seqPrefix n y := by
  obtain ⟨m, hm, z, rfl⟩ := h
  intro he
  exact hn (((C26_prefix_injective m n z y).mp he).1 ▸ hm)

/-- What holds between the rounds of the splicer when the segments' identifiers are prefixed. -/
structure Spliced (ns : List Nat) (S : List Name) (d : SDoc) : Prop where
  own : ∀ x ∈ d.ids, Owned ns x
  seen : ∀ x ∈ S, Owned ns x
  nodup : d.ids.Nodup

theorem Spliced.step {ns : List Nat} {S : List Name} {d d' : SDoc} {n : Nat} (h : Spliced ns S d) (hn : n ∉ ns)
    (hp : d'.Prefixed n) (hu : d'.ids.Nodup) :
    Spliced (n :: ns) (mergeDoc (S, d) d').1 (mergeDoc (S, d) d').2 ∧
      (mergeDoc (S, d) d').2.styles.getD [] = d.styles.getD [] ++ d'.styles.getD [] ∧
      (mergeDoc (S, d) d').2.regions.getD [] = d.regions.getD [] ++ d'.regions.getD [] := by
  have hown' : ∀ x ∈ d'.ids, Owned [n] x := fun x hx => ⟨n, by simp, hp x hx⟩
  have hsep : ∀ x ∈ d'.ids, ¬ Owned ns x := by
    intro x hx ho
    obtain ⟨y, hy⟩ := hp x hx
    exact ho.ne hn hy
  have hd1 : ∀ x ∈ d.styles.getD [], x ∈ d.ids := fun x hx => by simp [SDoc.ids, hx]
  have hd2 : ∀ x ∈ d.regions.getD [], x ∈ d.ids := fun x hx => by simp [SDoc.ids, hx]
  have hd3 : ∀ x ∈ idsOfL Att.id (contentOf d.body), x ∈ d.ids := fun x hx => by simp [SDoc.ids, hx]
  have he1 : ∀ x ∈ d'.styles.getD [], x ∈ d'.ids := fun x hx => by simp [SDoc.ids, hx]
  have he2 : ∀ x ∈ d'.regions.getD [], x ∈ d'.ids := fun x hx => by simp [SDoc.ids, hx]
  have he3 : ∀ x ∈ idsOfL Att.id (contentOf d'.body), x ∈ d'.ids := fun x hx => by simp [SDoc.ids, hx]
  obtain ⟨hs1, hs2⟩ := mergeStyling_same (ids := S) (a := d.styles) (b := d'.styles) (fun x hx =>
    ⟨fun hm => hsep x (he1 x hx) (h.own x (hd1 x hm)), fun hm => hsep x (he1 x hx) (h.seen x hm)⟩)
  have hsS : ∀ x ∈ (mergeStyling S d.styles d'.styles).1, Owned ns x := by
    intro x hx
    rcases (hs2 x).mp hx with hx | hx
    · exact h.seen x hx
    · exact h.own x (hd1 x hx)
  obtain ⟨hl1, hl2⟩ := mergeLayout_same (ids := (mergeStyling S d.styles d'.styles).1) (a := d.regions)
    (b := d'.regions) (fun x hx =>
    ⟨fun hm => hsep x (he2 x hx) (h.own x (hd2 x hm)), fun hm => hsep x (he2 x hx) (hsS x hm)⟩)
  have hlS : ∀ x ∈ (mergeLayout (mergeStyling S d.styles d'.styles).1 d.regions d'.regions).1, Owned ns x := by
    intro x hx
    rcases (hl2 x).mp hx with hx | hx
    · exact hsS x hx
    · exact h.own x (hd2 x hx)
  have hT1 : ∀ x ∈ d.styles.getD [], x ∈ (mergeLayout (mergeStyling S d.styles d'.styles).1 d.regions d'.regions).1 :=
    fun x hx => (hl2 x).mpr (.inl ((hs2 x).mpr (.inr hx)))
  have hT2 : ∀ x ∈ d.regions.getD [], x ∈ (mergeLayout (mergeStyling S d.styles d'.styles).1 d.regions d'.regions).1 :=
    fun x hx => (hl2 x).mpr (.inr hx)
  generalize hTdef : (mergeLayout (mergeStyling S d.styles d'.styles).1 d.regions d'.regions).1 = T at hlS hT1 hT2
  have r1 := renameList_ids T (contentOf d.body)
  have c1 := renameList_closed (P := Owned ns) (fun x hx => hx.dotOne) T (contentOf d.body) (fun x hx => h.own x (hd3 x hx))
  have hu' : d'.ids.Nodup := hu
  simp only [SDoc.ids, List.nodup_append] at hu'
  have hsame : (renameList (renameList T (contentOf d.body)).1 (contentOf d'.body)).2 = contentOf d'.body := by
    apply renameList_same _ _ hu'.2.1
    intro x hx hm
    refine hsep x (he3 x hx) ?_
    rcases (r1.mem x).mp hm with hm | hm
    · exact hlS x hm
    · exact c1 x hm
  have hb : mergeBody T d.body d'.body = ((renameList (renameList T (contentOf d.body)).1 (contentOf d'.body)).1,
      .elem (mergedAtt d.body) ((renameList T (contentOf d.body)).2 ++ contentOf d'.body)) := by
    rw [mergeBody, hsame]
  have hnd : (d.styles.getD [] ++ d.regions.getD []).Nodup := by
    have := h.nodup
    simp only [SDoc.ids] at this
    rw [List.nodup_append] at this
    exact this.1
  have hmd : mergeDoc (S, d) d' = ((renameList (renameList T (contentOf d.body)).1 (contentOf d'.body)).1,
      ⟨(mergeStyling S d.styles d'.styles).2, (mergeLayout (mergeStyling S d.styles d'.styles).1 d.regions d'.regions).2,
        .elem (mergedAtt d.body) ((renameList T (contentOf d.body)).2 ++ contentOf d'.body)⟩) := by
    simp only [mergeDoc, hTdef, hb]
  have hids : (mergeDoc (S, d) d').2.ids = (d.styles.getD [] ++ d'.styles.getD []) ++ (d.regions.getD [] ++ d'.regions.getD [])
      ++ (idsOfL Att.id (renameList T (contentOf d.body)).2 ++ idsOfL Att.id (contentOf d'.body)) := by
    rw [hmd, SDoc.ids, hs1, hl1, contentOf_elem, idsOfL_append]
  have wk : ∀ x, Owned ns x → Owned (n :: ns) x := by
    rintro x ⟨m, hm, hy⟩; exact ⟨m, List.mem_cons_of_mem _ hm, hy⟩
  have wk' : ∀ x ∈ d'.ids, Owned (n :: ns) x := by
    intro x hx; exact ⟨n, List.mem_cons_self, hp x hx⟩
  refine ⟨⟨?_, ?_, ?_⟩, by rw [hmd]; exact hs1, by rw [hmd]; exact hl1⟩
  · intro x hx
    rw [hids] at hx
    simp only [List.mem_append] at hx
    rcases hx with ((hx | hx) | (hx | hx)) | (hx | hx)
    · exact wk x (h.own x (hd1 x hx))
    · exact wk' x (he1 x hx)
    · exact wk x (h.own x (hd2 x hx))
    · exact wk' x (he2 x hx)
    · exact wk x (c1 x hx)
    · exact wk' x (he3 x hx)
  · intro x hx
    rw [hmd] at hx
    simp only at hx
    rw [(renameList_ids _ _).mem, r1.mem, hsame] at hx
    rcases hx with (hx | hx) | hx
    · exact wk x (hlS x hx)
    · exact wk x (c1 x hx)
    · exact wk' x (he3 x hx)
  · rw [hids]
    have hA : ∀ x, (x ∈ d.styles.getD [] ∨ x ∈ d.regions.getD []) → x ∈ T := fun x hx => hx.elim (hT1 x) (hT2 x)
    have oA : ∀ x ∈ T, ∀ y ∈ d'.ids, x ≠ y := fun x hx y hy he => hsep y hy (he ▸ hlS x hx)
    have oB : ∀ x ∈ idsOfL Att.id (renameList T (contentOf d.body)).2, ∀ y ∈ d'.ids, x ≠ y :=
      fun x hx y hy he => hsep y hy (he ▸ c1 x hx)
    have f1 := r1.fresh
    have n1 := r1.nodup
    simp only [List.nodup_append, List.mem_append] at hnd hu' ⊢
    obtain ⟨⟨u1, u2, u3⟩, u4, u5⟩ := hu'
    obtain ⟨v1, v2, v3⟩ := hnd
    refine ⟨⟨⟨v1, u1, ?_⟩, ⟨v2, u2, ?_⟩, ?_⟩, ⟨n1, u4, ?_⟩, ?_⟩
    · exact fun a ha b hb => oA a (hT1 a ha) b (he1 b hb)
    · exact fun a ha b hb => oA a (hT2 a ha) b (he2 b hb)
    · rintro a (ha | ha) b (hb | hb)
      · exact v3 a ha b hb
      · exact oA a (hT1 a ha) b (he2 b hb)
      · exact fun he => oA b (hT2 b hb) a (he1 a ha) he.symm
      · exact u3 a ha b hb
    · exact fun a ha b hb => oB a ha b (he3 b hb)
    · rintro a ((ha | ha) | (ha | ha)) b (hb | hb)
      · exact fun he => f1 b hb (he ▸ hT1 a ha)
      · exact oA a (hT1 a ha) b (he3 b hb)
      · exact fun he => oB b hb a (he1 a ha) he.symm
      · exact u5 a (.inl ha) b hb
      · exact fun he => f1 b hb (he ▸ hT2 a ha)
      · exact oA a (hT2 a ha) b (he3 b hb)
      · exact fun he => oB b hb a (he2 a ha) he.symm
      · exact u5 a (.inr ha) b hb

theorem Spliced.fold : ∀ (ds : List (Nat × SDoc)) (ns : List Nat) (st : List Name × SDoc), Spliced ns st.1 st.2 →
    (∀ p ∈ ds, p.1 ∉ ns) → (ds.map (·.1)).Nodup → (∀ p ∈ ds, p.2.Prefixed p.1 ∧ p.2.ids.Nodup) →
    ((ds.map (·.2)).foldl mergeDoc st).2.ids.Nodup ∧
      ((ds.map (·.2)).foldl mergeDoc st).2.styles.getD [] = st.2.styles.getD [] ++ (ds.map (fun p => p.2.styles.getD [])).flatten ∧
      ((ds.map (·.2)).foldl mergeDoc st).2.regions.getD [] = st.2.regions.getD [] ++ (ds.map (fun p => p.2.regions.getD [])).flatten
  | [], _, _, h, _, _, _ => by simp [h.nodup]
  | p :: ds, ns, (S, d), h, hn, hnd, hp => by
    obtain ⟨h1, h2, h3⟩ := h.step (hn p List.mem_cons_self) (hp p List.mem_cons_self).1 (hp p List.mem_cons_self).2
    simp only [List.map_cons, List.nodup_cons] at hnd
    have ih := Spliced.fold ds (p.1 :: ns) (mergeDoc (S, d) p.2) h1 (by
      intro q hq hm
      rw [List.mem_cons] at hm
      rcases hm with hm | hm
      · exact hnd.1 (hm ▸ List.mem_map_of_mem hq)
      · exact hn q (List.mem_cons_of_mem _ hq) hm) hnd.2 (fun q hq => hp q (List.mem_cons_of_mem _ hq))
    simp only [List.map_cons, List.foldl_cons, List.flatten_cons]
    refine ⟨ih.1, ?_, ?_⟩
    · rw [ih.2.1, h2, List.append_assoc]
    · rw [ih.2.2, h3, List.append_assoc]

/-- C27, whole document.  Segments extracted from documents with different sequence numbers, whose
identifiers are therefore prefixed, and each without repeated identifiers: the spliced document has no
repeated identifier among its styles, regions and content, and keeps all styles and regions under their
names, so that every reference to them still finds them. -/
theorem C27_document_identifiers_unique (segs : List (Nat × SDoc)) (hnum : (segs.map (·.1)).Nodup)
    (hseg : ∀ p ∈ segs, p.2.Prefixed p.1 ∧ p.2.ids.Nodup) (out : SDoc) (h : splice (segs.map (·.2)) = some out) :
    out.ids.Nodup ∧
    out.styles.getD [] = (segs.map (fun p => p.2.styles.getD [])).flatten ∧
    out.regions.getD [] = (segs.map (fun p => p.2.regions.getD [])).flatten := by
  cases segs with
  | nil => simp [splice] at h
  | cons p ds =>
    simp only [List.map_cons, splice, Option.some.injEq] at h
    simp only [List.map_cons, List.nodup_cons] at hnum
    obtain ⟨hp, hu⟩ := hseg p List.mem_cons_self
    have := Spliced.fold ds [p.1] ([], p.2) ⟨fun x hx => ⟨p.1, by simp, hp x hx⟩, by simp, hu⟩ (by
      intro q hq hm
      rw [List.mem_singleton] at hm
      exact hnum.1 (hm ▸ List.mem_map_of_mem hq)) hnum.2 (fun q hq => hseg q (List.mem_cons_of_mem _ hq))
    rw [h] at this
    simpa using this

/-! ### Examples and limits -/

/-- A segment with one style, one region and a paragraph. -/
def exSeg (sty reg p text : String) : SDoc :=
  ⟨some [sty.toList], some [reg.toList],
    .elem { kind := .body } [.elem { kind := .div } [.elem { kind := .p, id := some p.toList, style := [sty.toList] } [.text text.toList]]]⟩

/-- Three segments: the hypotheses are met, the third merge renames the identifiers of the first two
segments' content again. -/
example : ([(1, exSeg "SEQ1.s" "SEQ1.r" "SEQ1.p" "one"), (2, exSeg "SEQ2.s" "SEQ2.r" "SEQ2.p" "two"),
      (13, exSeg "SEQ13.s" "SEQ13.r" "SEQ13.p" "three")].map (fun p => (p.2.ids, decide p.2.ids.Nodup))) =
    [(["SEQ1.s".toList, "SEQ1.r".toList, "SEQ1.p".toList], true), (["SEQ2.s".toList, "SEQ2.r".toList, "SEQ2.p".toList], true),
      (["SEQ13.s".toList, "SEQ13.r".toList, "SEQ13.p".toList], true)] ∧
    (splice [exSeg "SEQ1.s" "SEQ1.r" "SEQ1.p" "one", exSeg "SEQ2.s" "SEQ2.r" "SEQ2.p" "two",
      exSeg "SEQ13.s" "SEQ13.r" "SEQ13.p" "three"]).map SDoc.ids =
    some ["SEQ1.s".toList, "SEQ2.s".toList, "SEQ13.s".toList, "SEQ1.r".toList, "SEQ2.r".toList, "SEQ13.r".toList,
      "SEQ1.p.1".toList, "SEQ2.p.1".toList, "SEQ13.p".toList] := by decide +kernel

example : (exSeg "SEQ1.s" "SEQ1.r" "SEQ1.p" "one").Prefixed 1 := by
  intro x hx
  have : x ∈ ["SEQ1.s".toList, "SEQ1.r".toList, "SEQ1.p".toList] := hx
  simp only [List.mem_cons, List.not_mem_nil, or_false] at this
  rcases this with rfl | rfl | rfl
  · exact ⟨"s".toList, by decide⟩
  · exact ⟨"r".toList, by decide⟩
  · exact ⟨"p".toList, by decide⟩

/-- Without prefixes, two documents whose style identifiers are unique in each can give a spliced
document with the same style identifier twice: `styling.merge` renames `s` to `s.1` without looking
whether `s.1` is taken. -/
theorem C27_false_unprefixed_styles :
    (splice [⟨some ["s".toList], none, .elem { kind := .body } []⟩,
      ⟨some ["s".toList, "s.1".toList], none, .elem { kind := .body } []⟩]).map (·.styles) =
    some (some ["s".toList, "s.1".toList, "s.1".toList]) := by decide +kernel

/-- The merged body keeps only the first segment's styles: a style on the body of a later segment is
not applied to its content any more. -/
theorem C27_false_body_style :
    (splice [⟨none, none, .elem { kind := .body } []⟩,
      ⟨some ["SEQ2.s".toList], none, .elem { kind := .body, style := ["SEQ2.s".toList] } []⟩]).map
        (fun d => (d.styles, match d.body with | .elem a _ => a.style | _ => [])) =
    some (some ["SEQ2.s".toList], []) := by decide +kernel

end Verif.Doc
