import Verif.Convert.Source
import Verif.Convert.WholeCases

/-! C110: what encoding a document does to the document itself. -/
namespace Verif.Convert

open Verif.Doc Verif.Style

/-! ### Specification -/

/-- The same size; a size without width is as wide as it is high. -/
def SameDim (a b : Dim) : Prop := a.v = b.v ∧ a.h.getD a.v = b.h.getD b.v

instance (a b : Dim) : Decidable (SameDim a b) := by unfold SameDim; infer_instance

/-- The size, in percent, of a p whose font size is not one cell and of a span whose font size is not that of the p. -/
def resized (parent x : PLab) : Option Rat :=
  match x.comp.fs with
  | some (.cell d) =>
    match x.att.kind with
    | .p => if SameDim ⟨none, 1⟩ d then none else some (d.v * 100)
    | .span =>
      match parent.comp.fs with
      | some (.cell e) => if SameDim e d then none else some (d.v / e.v * 100)
      | _ => none
    | _ => none
  | _ => none

/-- A p or span that has style references and is resized. -/
def Touched (parent x : PLab) : Prop := x.att.style ≠ [] ∧ (resized parent x).isSome = true

instance (parent x : PLab) : Decidable (Touched parent x) := by unfold Touched; infer_instance

/-- The document has such an element. -/
def AnyTouched (doc : Node PLab) : Prop :=
  ∃ anc parent x kids, Reach doc (anc ++ [parent]) (.elem x kids) ∧ Touched parent x

/-- The reference to the generated style in front of the references an element has. -/
def mark (nm : Rat → Name) (parent : PLab) : Node PLab → Node PLab
  | .elem x kids =>
    if x.att.style = [] then .elem x kids
    else .elem { x with att := { x.att with style := ((resized parent x).map nm).toList ++ x.att.style } } kids
  | n => n

mutual
/-- A document with these references. -/
def marked (nm : Rat → Name) : Node PLab → Node PLab
  | .elem x kids => .elem x (markedL nm x kids)
  | n => n
def markedL (nm : Rat → Name) (parent : PLab) : List (Node PLab) → List (Node PLab)
  | [] => []
  | k :: ks => mark nm parent (marked nm k) :: markedL nm parent ks
end

mutual
/-- A document without the style references of its p and span elements. -/
def unref : Node PLab → Node PLab
  | .elem x kids =>
    .elem (if x.att.kind = .p ∨ x.att.kind = .span then { x with att := { x.att with style := [] } } else x) (unrefL kids)
  | n => n
def unrefL : List (Node PLab) → List (Node PLab)
  | [] => []
  | k :: ks => unref k :: unrefL ks
end

/-! ### The result is that of the conversion -/

mutual
theorem sconv_result (m : Media) (nm : Rat → Name) : ∀ (n : Node PLab) (sh : Convert.Sheet), (sconv m nm n sh).2 = wconv m nm n sh
  | .text s, sh => by rw [sconv, wconv]
  | .br, sh => by rw [sconv, wconv]
  | .elem x kids, sh => by
    have ih := sconvL_result m nm x kids sh
    rw [sconv, wconv, ← ih]
    obtain ⟨src, r⟩ := sconvL m nm x kids sh
    cases r with
    | error e => rfl
    | ok q => simp only; cases convAtt m x.att <;> rfl
theorem sconvL_result (m : Media) (nm : Rat → Name) (parent : PLab) : ∀ (ks : List (Node PLab)) (sh : Convert.Sheet),
    (sconvL m nm parent ks sh).2 = wconvL m nm parent ks sh
  | [], sh => by rw [sconvL, wconvL]
  | k :: ks, sh => by
    have ih := sconv_result m nm k sh
    rw [sconvL, wconvL, ← ih]
    obtain ⟨k1, r⟩ := sconv m nm k sh
    cases r with
    | error e => rfl
    | ok q =>
      obtain ⟨k', sh1⟩ := q
      simp only
      cases hf : fixNode nm parent k k' sh1 with
      | error e => rfl
      | ok q =>
        obtain ⟨k', sh2⟩ := q
        simp only
        have ih := sconvL_result m nm parent ks sh2
        rw [← ih]
        obtain ⟨src, r⟩ := sconvL m nm parent ks sh2
        cases r <;> rfl
end

/-- C110: what comes out does not depend on the sharing. -/
theorem C110_result (m : Media) (pr : Rat → List Char) (hd : Head) (res : Rat × Rat) (place : Name → List Char × List Char) (doc : Node PLab) :
    (convertShared m pr hd res place doc).2 = convertDoc m pr hd res place doc := by
  rw [convertShared, convertDoc]
  cases convRegions res place hd.regions with
  | error e => rfl
  | ok ds =>
    simp only
    by_cases hdiv : hasDiv (forget doc) = true
    · rw [if_pos hdiv, if_pos hdiv, ← sconv_result]
      obtain ⟨src, r⟩ := sconv m (fontId pr) doc []
      cases r <;> rfl
    · rw [if_neg hdiv, if_neg hdiv]

/-! ### Only style references change -/

theorem unref_sameList (n : Node PLab) (c : Node Att) : unref (sameList n c) = unref n := by
  cases n with
  | text s => cases c <;> rfl
  | br => cases c <;> rfl
  | elem x kids =>
    cases c with
    | text s => rfl
    | br => rfl
    | elem a ks =>
      rw [sameList]
      split
      · rfl
      · split
        · rename_i h
          rw [unref, unref, if_pos h, if_pos h]
        · rfl

mutual
theorem sconv_unref (m : Media) (nm : Rat → Name) : ∀ (n : Node PLab) (sh : Convert.Sheet), unref (sconv m nm n sh).1 = unref n
  | .text s, sh => by rw [sconv]
  | .br, sh => by rw [sconv]
  | .elem x kids, sh => by
    have ih := sconvL_unref m nm x kids sh
    rw [sconv]
    generalize sconvL m nm x kids sh = q at ih
    obtain ⟨src, r⟩ := q
    cases r with
    | error e => simp only at ih ⊢; rw [unref, unref, ih]
    | ok q => simp only at ih ⊢; split <;> (simp only; rw [unref, unref, ih])
theorem sconvL_unref (m : Media) (nm : Rat → Name) (parent : PLab) : ∀ (ks : List (Node PLab)) (sh : Convert.Sheet),
    unrefL (sconvL m nm parent ks sh).1 = unrefL ks
  | [], sh => by rw [sconvL]
  | k :: ks, sh => by
    have ih := sconv_unref m nm k sh
    rw [sconvL]
    generalize sconv m nm k sh = q at ih
    obtain ⟨k1, r⟩ := q
    simp only at ih
    cases r with
    | error e => simp only; rw [unrefL, unrefL, ih]
    | ok q =>
      obtain ⟨k', sh1⟩ := q
      simp only
      cases hf : fixNode nm parent k k' sh1 with
      | error e => simp only; rw [unrefL, unrefL, ih]
      | ok q =>
        obtain ⟨k', sh2⟩ := q
        simp only
        have ih2 := sconvL_unref m nm parent ks sh2
        generalize sconvL m nm parent ks sh2 = q at ih2
        obtain ⟨src, r⟩ := q
        simp only at ih2
        cases r <;> (simp only; rw [unrefL, unrefL, unref_sameList, ih, ih2])
end

/-- C110: whether encoding succeeds or fails, the document keeps its text, timing, identifiers, regions, line breaks and the style
references of its body and divs; nothing but the style references of p and span elements can be different afterwards. -/
theorem C110_content_kept (m : Media) (pr : Rat → List Char) (hd : Head) (res : Rat × Rat) (place : Name → List Char × List Char) (doc : Node PLab) :
    unref (convertShared m pr hd res place doc).1 = unref doc := by
  rw [convertShared]
  split
  · rfl
  · split
    · have h := sconv_unref m (fontId pr) doc []
      generalize sconv m (fontId pr) doc [] = q at h
      obtain ⟨src, r⟩ := q
      cases r <;> exact h
    · rfl

/-! ### What changes -/

theorem eqDim_iff (a b : Dim) : eqDim a b = true ↔ SameDim a b := by
  obtain ⟨ah, av⟩ := a
  obtain ⟨bh, bv⟩ := b
  cases ah <;> cases bh <;> simp [eqDim, SameDim]

theorem fixFont_out {ref : Dim} {x : FEl} {sh : Convert.Sheet} {r : Option Rat × Convert.Sheet} (h : fixFont ref x sh = some r) :
    r.1 = if SameDim ref x.fs then none else some (x.fs.v / ref.v * 100) := by
  unfold fixFont at h
  split at h
  · rename_i he
    cases h
    rw [if_pos ((eqDim_iff _ _).1 he)]
  · rename_i he
    rw [if_neg (fun h' => he ((eqDim_iff _ _).2 h'))]
    cases hd : divDim x.fs ref with
    | none => rw [hd] at h; cases h
    | some k =>
      have hk : k = x.fs.v / ref.v * 100 := by
        unfold divDim at hd
        split at hd
        · cases hd
        · split at hd
          · cases hd
          · exact (Option.some.inj hd).symm
      rw [hd] at h
      simp only at h
      split at h
      · split at h
        · cases h
        · cases h; rw [hk]
      · cases h; rw [hk]

theorem felOf_some {x : PLab} {f : FEl} (h : felOf x = some f) : x.comp.fs = some (.cell f.fs) := by
  unfold felOf at h
  split at h
  · rename_i d hd
    cases h
    exact hd
  · cases h

/-- What `_fix_fontsize` adds. -/
theorem fixNode_out {nm : Rat → Name} {parent x : PLab} {kids : List (Node PLab)} {k' : Node Att} {sh : Convert.Sheet} {r : Node Att × Convert.Sheet}
    (h : fixNode nm parent (.elem x kids) k' sh = .ok r) : r.1 = addRef nm (resized parent x) k' := by
  have hnone : addRef nm none k' = k' := by cases k' <;> rfl
  unfold fixNode at h
  simp only at h
  split at h
  · rename_i hk
    split at h
    · cases h
    · rename_i f hf
      split at h
      · cases h
      · rename_i o sh' hx
        cases h
        have := fixFont_out hx
        simp only at this
        simp only [resized, felOf_some hf, hk]
        rw [this]
        congr 1
        split
        · rfl
        · congr 1; grind
  · rename_i hk
    split at h
    · rename_i f p hf hp
      split at h
      · cases h
      · rename_i o sh' hx
        cases h
        have := fixFont_out hx
        simp only at this
        simp only [resized, felOf_some hf, felOf_some hp, hk]
        rw [this]
    · cases h
  · rename_i h1 h2
    cases h
    have : resized parent x = none := by
      unfold resized
      split
      · split
        · rename_i hk; exact absurd hk h1
        · rename_i hk; exact absurd hk h2
        · rfl
      · rfl
    rw [this, hnone]

theorem convAtt_style {m : Media} {a b : Att} (h : convAtt m a = .ok b) (hk : a.kind = .p ∨ a.kind = .span) : b.style = a.style := by
  unfold convAtt at h
  rcases hk with hk | hk
  all_goals
    rw [hk] at h
    simp only [bind, Except.bind] at h
    repeat' split at h
    all_goals first
      | (cases h; done)
      | (cases h; rfl)

theorem resized_kind {parent x : PLab} {q : Rat} (h : resized parent x = some q) : x.att.kind = .p ∨ x.att.kind = .span := by
  unfold resized at h
  split at h
  · split at h
    · rename_i hk; exact .inl hk
    · rename_i hk; exact .inr hk
    · cases h
  · cases h

theorem sameList_mark {m : Media} {nm : Rat → Name} {parent : PLab} {k : Node PLab} {k0 : Node Att} {sh0 sh1 sh : Convert.Sheet}
    {r : Node Att × Convert.Sheet} (h0 : wconv m nm k sh0 = .ok (k0, sh1)) (h : fixNode nm parent k k0 sh = .ok r) :
    sameList (marked nm k) r.1 = mark nm parent (marked nm k) := by
  cases k with
  | text s => rw [marked]; · cases r.1 <;> rfl
              · intro x kids h; cases h
  | br => rw [marked]; · cases r.1 <;> rfl
          · intro x kids h; cases h
  | elem x kids =>
    obtain ⟨ks, a, _, h2, _, h4⟩ := wconv_elem h0
    simp only at h4
    subst h4
    rw [fixNode_out h, marked, addRef, sameList, mark]
    split
    · rfl
    · split
      · rename_i hk
        simp only
        rw [convAtt_style h2 hk]
      · rename_i hk
        have : resized parent x = none := by
          cases hr : resized parent x with
          | none => rfl
          | some q => exact absurd (resized_kind hr) hk
        rw [this]
        rfl

mutual
theorem sconv_marked (m : Media) (nm : Rat → Name) : ∀ (n : Node PLab) (sh : Convert.Sheet) (r : Node Att × Convert.Sheet),
    wconv m nm n sh = .ok r → (sconv m nm n sh).1 = marked nm n
  | .text s, sh, r, _ => by rw [sconv, marked]; intro x kids h; cases h
  | .br, sh, r, _ => by rw [sconv, marked]; intro x kids h; cases h
  | .elem x kids, sh, r, h => by
    obtain ⟨ks, a, h1, h2, h3, h4⟩ := wconv_elem h
    have ih := sconvL_marked m nm x kids sh _ h1
    have hr := sconvL_result m nm x kids sh
    rw [h1] at hr
    rw [sconv, marked]
    generalize sconvL m nm x kids sh = q at ih hr
    obtain ⟨src, q⟩ := q
    simp only at hr ih
    subst hr
    simp only [h2]
    rw [ih]
theorem sconvL_marked (m : Media) (nm : Rat → Name) (parent : PLab) : ∀ (ks : List (Node PLab)) (sh : Convert.Sheet)
    (r : List (Node Att) × Convert.Sheet), wconvL m nm parent ks sh = .ok r → (sconvL m nm parent ks sh).1 = markedL nm parent ks
  | [], sh, r, _ => by rw [sconvL, markedL]
  | k :: ks, sh, r, h => by
    obtain ⟨k0, sh1, k', sh2, ks', h1, h2, h3, h4⟩ := wconvL_cons h
    have ih := sconv_marked m nm k sh _ h1
    have hr := sconv_result m nm k sh
    rw [h1] at hr
    have ih2 := sconvL_marked m nm parent ks sh2 _ h3
    have hr2 := sconvL_result m nm parent ks sh2
    rw [h3] at hr2
    rw [sconvL, markedL]
    generalize sconv m nm k sh = q at ih hr
    obtain ⟨src, q⟩ := q
    simp only at hr ih
    subst hr
    simp only [h2]
    generalize sconvL m nm parent ks sh2 = q at ih2 hr2
    obtain ⟨src2, q⟩ := q
    simp only at hr2 ih2
    subst hr2
    simp only
    rw [ih, ih2, sameList_mark h1 h2]
end

/-- C110: what a successful encoding leaves behind: every p and span that has style references and whose font size is not that of
its surroundings refers, in front of its own references, to the style that was generated for it. -/
theorem C110_what_changes (m : Media) (pr : Rat → List Char) (hd : Head) (res : Rat × Rat) (place : Name → List Char × List Char) (doc : Node PLab)
    (d : DDoc) (h : convertDoc m pr hd res place doc = .ok d) (hdiv : hasDiv (forget doc) = true) :
    (convertShared m pr hd res place doc).1 = marked (fontId pr) doc := by
  obtain ⟨ds, h1, _, h2⟩ := convertDoc_ok h
  rcases h2 with ⟨h2, _⟩ | ⟨_, out, sh, h2, _⟩
  · rw [hdiv] at h2; cases h2
  · have hs := sconv_marked m (fontId pr) doc [] _ h2
    rw [convertShared, h1]
    simp only
    rw [if_pos hdiv]
    generalize sconv m (fontId pr) doc [] = q at hs
    obtain ⟨src, q⟩ := q
    cases q <;> exact hs

/-! ### Documents without such elements -/

/-- One if the child is touched. -/
def touch (parent : PLab) : Node PLab → Nat
  | .elem x _ => if Touched parent x then 1 else 0
  | _ => 0

mutual
/-- How many elements are touched, below the root. -/
def touches : Node PLab → Nat
  | .elem x kids => touchesL x kids
  | _ => 0
def touchesL (parent : PLab) : List (Node PLab) → Nat
  | [] => 0
  | k :: ks => touch parent k + touches k + touchesL parent ks
end

theorem reach_root {α : Type} {root : Node α} {anc : List α} {p : α} {n : Node α} (h : Reach root (anc ++ [p]) n) :
    ∃ kids, Reach root anc (.elem p kids) ∧ n ∈ kids := by
  generalize he : anc ++ [p] = l at h
  cases h with
  | here => simp at he
  | step hr hk =>
    obtain ⟨e1, e2⟩ := List.append_inj' he rfl
    cases e2
    subst e1
    exact ⟨_, hr, hk⟩

/-- A place below a child is a place below the parent. -/
theorem reach_below {α : Type} {x : α} {kids : List (Node α)} {k : Node α} (hk : k ∈ kids) {anc : List α} {n : Node α} (h : Reach k anc n) :
    Reach (.elem x kids) (x :: anc) n := by
  induction h with
  | here => exact Reach.step (anc := []) .here hk
  | step _ hm ih => exact Reach.step (anc := x :: _) ih hm

theorem touchesL_pos {parent : PLab} : ∀ {ks : List (Node PLab)}, 0 < touchesL parent ks ↔
    (∃ x kids, .elem x kids ∈ ks ∧ Touched parent x) ∨ ∃ k ∈ ks, 0 < touches k
  | [] => by simp [touchesL]
  | k :: ks => by
    have ih := touchesL_pos (parent := parent) (ks := ks)
    rw [touchesL]
    constructor
    · intro h
      by_cases h1 : 0 < touches k
      · exact .inr ⟨k, List.mem_cons_self, h1⟩
      by_cases h2 : 0 < touchesL parent ks
      · rcases ih.1 h2 with ⟨x, kids, hm, ht⟩ | ⟨q, hq, hp⟩
        · exact .inl ⟨x, kids, List.mem_cons_of_mem _ hm, ht⟩
        · exact .inr ⟨q, List.mem_cons_of_mem _ hq, hp⟩
      · cases k with
        | text s => simp only [touch] at h; omega
        | br => simp only [touch] at h; omega
        | elem x kids =>
          rw [touch] at h
          split at h
          · rename_i ht
            exact .inl ⟨x, kids, List.mem_cons_self, ht⟩
          · omega
    · rintro (⟨x, kids, hm, ht⟩ | ⟨q, hq, hp⟩)
      · rcases List.mem_cons.1 hm with e | e
        · subst e
          rw [touch, if_pos ht]
          omega
        · have := ih.2 (.inl ⟨x, kids, e, ht⟩)
          omega
      · rcases List.mem_cons.1 hq with e | e
        · subst e; omega
        · have := ih.2 (.inr ⟨q, e, hp⟩)
          omega

mutual
theorem touches_any : ∀ {n : Node PLab}, 0 < touches n → AnyTouched n
  | .text s, h => by rw [touches] at h; · omega
                     · intro x kids h; cases h
  | .br, h => by rw [touches] at h; · omega
                 · intro x kids h; cases h
  | .elem x kids, h => by
    rw [touches] at h
    rcases touchesL_pos.1 h with ⟨y, ks, hm, ht⟩ | ⟨q, hq, hp⟩
    · exact ⟨[], x, y, ks, Reach.step .here hm, ht⟩
    · obtain ⟨anc, p, y, ks, hr, ht⟩ := touchesL_any hq hp
      exact ⟨x :: anc, p, y, ks, by simpa using reach_below hq hr, ht⟩
theorem touchesL_any : ∀ {ks : List (Node PLab)} {k : Node PLab}, k ∈ ks → 0 < touches k → AnyTouched k
  | [], _, h, _ => by simp at h
  | q :: qs, k, h, hp => by
    rcases List.mem_cons.1 h with e | e
    · rw [e] at hp ⊢; exact touches_any hp
    · exact touchesL_any e hp
end

theorem touches_reach {root : Node PLab} {anc : List PLab} {n : Node PLab} (h : Reach root anc n) : 0 < touches n → 0 < touches root := by
  induction h with
  | here => exact id
  | step _ hk ih =>
    intro hp
    apply ih
    rw [touches]
    exact touchesL_pos.2 (.inr ⟨_, hk, hp⟩)

theorem any_touches {n : Node PLab} (h : AnyTouched n) : 0 < touches n := by
  obtain ⟨anc, p, x, kids, hr, ht⟩ := h
  obtain ⟨ks, h1, h2⟩ := reach_root hr
  refine touches_reach h1 ?_
  rw [touches]
  exact touchesL_pos.2 (.inl ⟨x, kids, h2, ht⟩)

theorem anyTouched_iff (n : Node PLab) : AnyTouched n ↔ touches n ≠ 0 :=
  ⟨fun h => Nat.pos_iff_ne_zero.1 (any_touches h), fun h => touches_any (Nat.pos_iff_ne_zero.2 h)⟩

theorem mark_none {nm : Rat → Name} {parent x : PLab} {kids : List (Node PLab)} (h : ¬ Touched parent x) :
    mark nm parent (.elem x kids) = .elem x kids := by
  rw [mark]
  split
  · rfl
  · rename_i hs
    have : resized parent x = none := by
      cases hr : resized parent x with
      | none => rfl
      | some q => exact absurd ⟨hs, by rw [hr]; rfl⟩ h
    rw [this]
    rfl

mutual
theorem marked_none (nm : Rat → Name) : ∀ (n : Node PLab), touches n = 0 → marked nm n = n
  | .text s, _ => by rw [marked]; intro x kids h; cases h
  | .br, _ => by rw [marked]; intro x kids h; cases h
  | .elem x kids, h => by
    rw [touches] at h
    rw [marked, markedL_none nm x kids h]
theorem markedL_none (nm : Rat → Name) (parent : PLab) : ∀ (ks : List (Node PLab)), touchesL parent ks = 0 → markedL nm parent ks = ks
  | [], _ => by rw [markedL]
  | k :: ks, h => by
    rw [touchesL] at h
    rw [markedL, marked_none nm k (by omega), markedL_none nm parent ks (by omega)]
    congr 1
    cases k with
    | text s => rfl
    | br => rfl
    | elem x kids =>
      refine mark_none ?_
      intro ht
      rw [touch, if_pos ht] at h
      omega
end

/-! ### Counting references -/

mutual
/-- How many style references a document has. -/
def refs : Node Att → Nat
  | .elem a kids => a.style.length + refsL kids
  | _ => 0
def refsL : List (Node Att) → Nat
  | [] => 0
  | k :: ks => refs k + refsL ks
end

/-- How many references an element of the converted document has for its own. -/
def ownRefs (x : PLab) : Nat := if x.att.kind = .body then 0 else x.att.style.length

/-- One if a style is generated for the child. -/
def generated (parent : PLab) : Node PLab → Nat
  | .elem x _ => if (resized parent x).isSome then 1 else 0
  | _ => 0

mutual
/-- How many references the converted document has. -/
def outRefs : Node PLab → Nat
  | .elem x kids => ownRefs x + outRefsL x kids
  | _ => 0
def outRefsL (parent : PLab) : List (Node PLab) → Nat
  | [] => 0
  | k :: ks => outRefs k + generated parent k + outRefsL parent ks
end

theorem refs_addRef (nm : Rat → Name) (o : Option Rat) (x : Att) (kids : List (Node Att)) :
    refs (addRef nm o (.elem x kids)) = refs (.elem x kids) + (if o.isSome then 1 else 0) := by
  rw [addRef, refs, refs]
  cases o
  · rfl
  · simp only [Option.map_some, Option.toList_some, List.length_append, List.length_singleton, Option.isSome_some, if_true]
    omega

theorem convAtt_own {m : Media} {x : PLab} {b : Att} (h : convAtt m x.att = .ok b) : b.style.length = ownRefs x := by
  rw [ownRefs]
  cases hk : x.att.kind with
  | body => unfold convAtt at h; rw [hk] at h; cases h; rfl
  | div => unfold convAtt at h; rw [hk] at h; cases h; rfl
  | p => rw [convAtt_style h (.inl hk)]; rfl
  | span => rw [convAtt_style h (.inr hk)]; rfl

theorem fixNode_text {nm : Rat → Name} {parent : PLab} {k : Node PLab} (hk : ∀ x kids, k ≠ .elem x kids) {k' : Node Att} {sh : Convert.Sheet}
    {r : Node Att × Convert.Sheet} (h : fixNode nm parent k k' sh = .ok r) : r = (k', sh) := by
  cases k with
  | text s => rw [fixNode] at h; · cases h; rfl
              · intro x kids e; cases e
  | br => rw [fixNode] at h; · cases h; rfl
          · intro x kids e; cases e
  | elem x kids => exact absurd rfl (hk x kids)

mutual
theorem wconv_refs {m : Media} {nm : Rat → Name} : ∀ {n : Node PLab} {sh : Convert.Sheet} {r : Node Att × Convert.Sheet},
    wconv m nm n sh = .ok r → refs r.1 = outRefs n
  | .text s, sh, r, h => by rw [wconv] at h; cases h; rw [refs, outRefs] <;> (intros; contradiction)
  | .br, sh, r, h => by rw [wconv] at h; cases h; rw [refs, outRefs] <;> (intros; contradiction)
  | .elem x kids, sh, r, h => by
    obtain ⟨ks, a, h1, h2, h3, h4⟩ := wconv_elem h
    have ih := wconvL_refs h1
    simp only at ih
    rw [h4, refs, outRefs, ih, convAtt_own h2]
theorem wconvL_refs {m : Media} {nm : Rat → Name} {parent : PLab} : ∀ {ks : List (Node PLab)} {sh : Convert.Sheet}
    {r : List (Node Att) × Convert.Sheet}, wconvL m nm parent ks sh = .ok r → refsL r.1 = outRefsL parent ks
  | [], sh, r, h => by rw [wconvL] at h; cases h; rw [refsL, outRefsL]
  | k :: ks, sh, r, h => by
    obtain ⟨k0, sh1, k', sh2, ks', h1, h2, h3, h4⟩ := wconvL_cons h
    have ih := wconv_refs h1
    have ih2 := wconvL_refs h3
    simp only at ih ih2
    rw [h4, refsL, outRefsL, ih2, ← ih]
    congr 1
    cases k with
    | text s => have := fixNode_text (by intros; simp) h2; cases this; simp only [generated, Nat.add_zero]
    | br => have := fixNode_text (by intros; simp) h2; cases this; simp only [generated, Nat.add_zero]
    | elem x kids =>
      obtain ⟨ks0, a, _, _, _, e4⟩ := wconv_elem h1
      simp only at e4
      subst e4
      have := fixNode_out h2
      simp only at this
      rw [this, refs_addRef, generated]
end

/-! ### The document afterwards -/

theorem resized_parent {p q : PLab} (h : p.comp = q.comp) (x : PLab) : resized p x = resized q x := by
  unfold resized
  rw [h]

/-- The element with other references. -/
def restyle (x : PLab) (st : List Name) : PLab := { x with att := { x.att with style := st } }

theorem resized_restyle (p x : PLab) (st : List Name) : resized p (restyle x st) = resized p x := rfl

theorem outRefsL_parent {p q : PLab} (h : p.comp = q.comp) : ∀ (ks : List (Node PLab)), outRefsL p ks = outRefsL q ks
  | [] => by rw [outRefsL, outRefsL]
  | k :: ks => by
    rw [outRefsL, outRefsL, outRefsL_parent h ks]
    congr 2
    cases k with
    | text s => rfl
    | br => rfl
    | elem x kids => rw [generated, generated, resized_parent h]

theorem mark_restyle (nm : Rat → Name) (parent x : PLab) (kids : List (Node PLab)) :
    ∃ st, mark nm parent (.elem x kids) = .elem (restyle x st) kids ∧
      st.length = x.att.style.length + touch parent (.elem x kids) := by
  rw [mark, touch]
  split
  · rename_i h
    refine ⟨x.att.style, rfl, ?_⟩
    rw [if_neg (fun ht => ht.1 h)]
    rfl
  · rename_i h
    refine ⟨_, rfl, ?_⟩
    cases hr : resized parent x with
    | none =>
      rw [if_neg (fun ht => by have := ht.2; rw [hr] at this; cases this)]
      rfl
    | some q =>
      rw [if_pos ⟨h, by rw [hr]; rfl⟩]
      simp

mutual
theorem marked_refs (nm : Rat → Name) : ∀ (n : Node PLab), outRefs (marked nm n) = outRefs n + touches n
  | .text s => by simp only [marked, touches, Nat.add_zero]
  | .br => by simp only [marked, touches, Nat.add_zero]
  | .elem x kids => by
    rw [marked, outRefs, outRefs, touches, markedL_refs nm x kids]
    omega
theorem markedL_refs (nm : Rat → Name) (parent : PLab) : ∀ (ks : List (Node PLab)),
    outRefsL parent (markedL nm parent ks) = outRefsL parent ks + touchesL parent ks
  | [] => by rw [markedL, touchesL]; rfl
  | k :: ks => by
    rw [markedL, outRefsL, outRefsL, touchesL, markedL_refs nm parent ks]
    have ih := marked_refs nm k
    cases k with
    | text s => simp only [marked, mark, touch, touches, generated, outRefs]; omega
    | br => simp only [marked, mark, touch, touches, generated, outRefs]; omega
    | elem x kids =>
      rw [marked] at ih ⊢
      obtain ⟨st, e1, e2⟩ := mark_restyle nm parent x (markedL nm x kids)
      have hg : generated parent (.elem (restyle x st) (markedL nm x kids)) = generated parent (.elem x kids) := rfl
      have ho : outRefs (.elem (restyle x st) (markedL nm x kids)) = outRefs (.elem x (markedL nm x kids)) + touch parent (.elem x kids) := by
        rw [outRefs, outRefs, outRefsL_parent (p := restyle x st) (q := x) rfl]
        have hw : ownRefs (restyle x st) = ownRefs x + touch parent (.elem x kids) := by
          have ht : touch parent (.elem x (markedL nm x kids)) = touch parent (.elem x kids) := rfl
          rw [ht] at e2
          show (if x.att.kind = .body then 0 else st.length) = (if x.att.kind = .body then 0 else x.att.style.length) + _
          split
          · rename_i hb
            rw [touch, if_neg]
            rintro ⟨_, hr⟩
            obtain ⟨q, hq⟩ := Option.isSome_iff_exists.1 hr
            rcases resized_kind hq with h | h <;> rw [h] at hb <;> cases hb
          · rw [e2]
        omega
      rw [e1, hg, ho, ih]
      omega
end

theorem felOf_restyle (x : PLab) (st : List Name) : felOf (restyle x st) = felOf x := rfl

theorem fixNode_restyle (nm : Rat → Name) (parent x : PLab) (st : List Name) (ks ks' : List (Node PLab)) (k0 k1 : Node Att) (sh : Convert.Sheet)
    {r : Node Att × Convert.Sheet} (h : fixNode nm parent (.elem x ks) k0 sh = .ok r) :
    ∃ r', fixNode nm parent (.elem (restyle x st) ks') k1 sh = .ok r' ∧ r'.2 = r.2 := by
  have hk : (restyle x st).att.kind = x.att.kind := rfl
  rw [fixNode] at h ⊢
  simp only [felOf_restyle, hk]
  cases hkd : x.att.kind with
  | body => simp only [hkd] at h ⊢; cases h; exact ⟨_, rfl, rfl⟩
  | div => simp only [hkd] at h ⊢; cases h; exact ⟨_, rfl, rfl⟩
  | p =>
    simp only [hkd] at h ⊢
    cases hf : felOf x with
    | none => simp only [hf] at h; cases h
    | some f =>
      simp only [hf] at h ⊢
      cases hx : fixFont ⟨none, 1⟩ f sh with
      | none => simp only [hx] at h; cases h
      | some q => simp only [hx] at h ⊢; cases h; exact ⟨_, rfl, rfl⟩
  | span =>
    simp only [hkd] at h ⊢
    cases hf : felOf x with
    | none => simp only [hf] at h; cases h
    | some f =>
      cases hp : felOf parent with
      | none => simp only [hf, hp] at h; cases h
      | some g =>
        simp only [hf, hp] at h ⊢
        cases hx : fixFont g.fs f sh with
        | none => simp only [hx] at h; cases h
        | some q => simp only [hx] at h ⊢; cases h; exact ⟨_, rfl, rfl⟩

theorem convAtt_restyle {m : Media} {x : PLab} {a : Att} (h : convAtt m x.att = .ok a) (st : List Name) :
    ∃ a', convAtt m (restyle x st).att = .ok a' ∧ a'.kind = a.kind := by
  unfold convAtt at h ⊢
  have hk : (restyle x st).att.kind = x.att.kind := rfl
  rw [hk]
  cases hkd : x.att.kind with
  | body => rw [hkd] at h; cases h; exact ⟨_, rfl, rfl⟩
  | div => rw [hkd] at h; cases h; exact ⟨_, rfl, rfl⟩
  | p =>
    rw [hkd] at h
    simp only [bind, Except.bind] at h ⊢
    have hb : (restyle x st).att.beg = x.att.beg := rfl
    have he : (restyle x st).att.fin = x.att.fin := rfl
    rw [hb, he]
    repeat' split at h
    all_goals first
      | (cases h; done)
      | (cases h; exact ⟨_, rfl, rfl⟩)
  | span =>
    rw [hkd] at h
    simp only [bind, Except.bind] at h ⊢
    have hb : (restyle x st).att.beg = x.att.beg := rfl
    have he : (restyle x st).att.fin = x.att.fin := rfl
    rw [hb, he]
    repeat' split at h
    all_goals first
      | (cases h; done)
      | (cases h; exact ⟨_, rfl, rfl⟩)

theorem fixNode_parent {p q : PLab} (h : p.comp = q.comp) (nm : Rat → Name) (k : Node PLab) (k0 : Node Att) (sh : Convert.Sheet) :
    fixNode nm p k k0 sh = fixNode nm q k k0 sh := by
  unfold fixNode felOf
  rw [h]

theorem wconvL_parent {p q : PLab} (h : p.comp = q.comp) (m : Media) (nm : Rat → Name) : ∀ (ks : List (Node PLab)) (sh : Convert.Sheet),
    wconvL m nm p ks sh = wconvL m nm q ks sh
  | [], sh => by rw [wconvL, wconvL]
  | k :: ks, sh => by
    rw [wconvL, wconvL]
    cases wconv m nm k sh with
    | error e => rfl
    | ok r =>
      simp only
      rw [fixNode_parent h]
      cases fixNode nm q k r.1 r.2 with
      | error e => rfl
      | ok r => simp only; rw [wconvL_parent h m nm ks]

theorem fitsD_kind {a b : Att} {ks ks' : List (Node Att)} (h : a.kind = b.kind) (kd : Kind) : fitsD kd (.elem a ks) = fitsD kd (.elem b ks') := by
  cases kd <;> simp only [fitsD, h]

mutual
/-- Conversion of the document afterwards. -/
theorem wconv_again {m : Media} {nm : Rat → Name} : ∀ {n : Node PLab} {sh : Convert.Sheet} {r : Node Att × Convert.Sheet},
    wconv m nm n sh = .ok r → ∃ c, wconv m nm (marked nm n) sh = .ok (c, r.2) ∧ ∀ kd, fitsD kd c = fitsD kd r.1
  | .text s, sh, r, h => by rw [wconv] at h; cases h; rw [marked]; · exact ⟨_, rfl, fun _ => rfl⟩
                            · intros; contradiction
  | .br, sh, r, h => by rw [wconv] at h; cases h; rw [marked]; · exact ⟨_, rfl, fun _ => rfl⟩
                        · intros; contradiction
  | .elem x kids, sh, r, h => by
    obtain ⟨ks, a, h1, h2, h3, h4⟩ := wconv_elem h
    obtain ⟨cs, e1, e2⟩ := wconvL_again h1
    simp only at e1 e2
    refine ⟨.elem a cs, ?_, fun kd => by rw [h4]; exact fitsD_kind rfl kd⟩
    rw [marked, wconv]
    simp only [e1, h2]
    rw [if_pos (by rw [e2]; exact h3)]
theorem wconvL_again {m : Media} {nm : Rat → Name} {parent : PLab} : ∀ {ks : List (Node PLab)} {sh : Convert.Sheet}
    {r : List (Node Att) × Convert.Sheet}, wconvL m nm parent ks sh = .ok r →
    ∃ cs, wconvL m nm parent (markedL nm parent ks) sh = .ok (cs, r.2) ∧ ∀ {kd}, cs.all (fitsD kd) = r.1.all (fitsD kd)
  | [], sh, r, h => by rw [wconvL] at h; cases h; rw [markedL, wconvL]; exact ⟨_, rfl, rfl⟩
  | k :: ks, sh, r, h => by
    obtain ⟨k0, sh1, k', sh2, ks', h1, h2, h3, h4⟩ := wconvL_cons h
    obtain ⟨c, e1, e2⟩ := wconv_again h1
    obtain ⟨cs, f1, f2⟩ := wconvL_again h3
    simp only at e1 e2 f1 f2
    rw [markedL]
    obtain ⟨o, g0⟩ := fixNode_addRef h2
    simp only at g0
    cases k with
    | text s =>
      have hk := fixNode_text (by intros; simp) h2
      cases hk
      have hm : marked nm (.text s) = (.text s) := by simp only [marked]
      have hm2 : mark nm parent (.text s) = (.text s) := by simp only [mark]
      have : fixNode nm parent (.text s) c sh1 = .ok (c, sh1) := by simp only [fixNode]
      rw [hm] at e1 ⊢
      rw [hm2, wconvL]
      simp only [e1, this, f1]
      refine ⟨c :: cs, rfl, ?_⟩
      intro kd
      rw [h4, List.all_cons, List.all_cons, e2, f2]
    | br =>
      have hk := fixNode_text (by intros; simp) h2
      cases hk
      have hm : marked nm .br = .br := by simp only [marked]
      have hm2 : mark nm parent .br = .br := by simp only [mark]
      have : fixNode nm parent .br c sh1 = .ok (c, sh1) := by simp only [fixNode]
      rw [hm] at e1 ⊢
      rw [hm2, wconvL]
      simp only [e1, this, f1]
      refine ⟨c :: cs, rfl, ?_⟩
      intro kd
      rw [h4, List.all_cons, List.all_cons, e2, f2]
    | elem x kids =>
      rw [marked] at e1 ⊢
      obtain ⟨st, q1, _⟩ := mark_restyle nm parent x (markedL nm x kids)
      rw [q1]
      obtain ⟨ks1, a1, w1, w2, w3, w4⟩ := wconv_elem e1
      simp only at w1 w4
      obtain ⟨a2, v1, v2⟩ := convAtt_restyle w2 st
      have hw : wconv m nm (.elem (restyle x st) (markedL nm x kids)) sh = .ok (.elem a2 ks1, sh1) := by
        rw [wconv, wconvL_parent (p := restyle x st) (q := x) rfl]
        simp only [w1, v1]
        rw [if_pos (by exact w3)]
      obtain ⟨r', u1, u2⟩ := fixNode_restyle nm parent x st kids (markedL nm x kids) k0 (.elem a2 ks1) sh1 h2
      obtain ⟨o', u3⟩ := fixNode_addRef u1
      obtain ⟨n', s'⟩ := r'
      simp only at u2 u3
      subst u2
      rw [wconvL]
      simp only [hw, u1, f1]
      refine ⟨n' :: cs, rfl, ?_⟩
      intro kd
      rw [h4, List.all_cons, List.all_cons, f2, u3, g0, fitsD_addRef, fitsD_addRef, ← e2, w4]
      congr 1
      exact fitsD_kind v2 kd
end

/-! ### The theorems -/

theorem marked_forget_div (nm : Rat → Name) (n : Node PLab) : hasDiv (forget (marked nm n)) = hasDiv (forget n) := by
  cases n with
  | text s => simp only [marked]
  | br => simp only [marked]
  | elem x kids =>
    rw [marked, forget, forget, hasDiv, hasDiv]
    generalize x = q at *
    induction kids with
    | nil => rw [markedL]
    | cons k ks ih =>
      rw [markedL, forgetL, forgetL, List.any_cons, List.any_cons, ih]
      congr 1
      cases k with
      | text s => simp only [marked, mark]
      | br => simp only [marked, mark]
      | elem y kids =>
        rw [marked]
        obtain ⟨st, e, _⟩ := mark_restyle nm q y (markedL nm y kids)
        rw [e, forget, forget]
        rfl

/-- C110: encoding leaves the document as it is if and only if no p or span of it has both style references and a font size that is
not that of its surroundings. -/
theorem C110_unchanged_iff (m : Media) (pr : Rat → List Char) (hd : Head) (res : Rat × Rat) (place : Name → List Char × List Char) (doc : Node PLab)
    (d : DDoc) (h : convertDoc m pr hd res place doc = .ok d) (hdiv : hasDiv (forget doc) = true) :
    (convertShared m pr hd res place doc).1 = doc ↔ ¬ AnyTouched doc := by
  rw [C110_what_changes m pr hd res place doc d h hdiv, anyTouched_iff, Decidable.not_not]
  constructor
  · intro he
    have := marked_refs (fontId pr) doc
    rw [he] at this
    omega
  · exact marked_none (fontId pr) doc

/-- C110: a document without divs is left as it is. -/
theorem C110_no_div (m : Media) (pr : Rat → List Char) (hd : Head) (res : Rat × Rat) (place : Name → List Char × List Char) (doc : Node PLab)
    (hdiv : hasDiv (forget doc) = false) : (convertShared m pr hd res place doc).1 = doc := by
  rw [convertShared]
  split
  · rfl
  · rw [if_neg (by rw [hdiv]; simp)]

/-- C110: encoding the document again succeeds, with the same styles and regions, and gives the same body if and only if no p or
span has both style references and a font size that is not that of its surroundings. -/
theorem C110_again (m : Media) (pr : Rat → List Char) (hd : Head) (res : Rat × Rat) (place : Name → List Char × List Char) (doc : Node PLab)
    (d : DDoc) (h : convertDoc m pr hd res place doc = .ok d) (hdiv : hasDiv (forget doc) = true) :
    ∃ d', convertDoc m pr hd res place (convertShared m pr hd res place doc).1 = .ok d' ∧ d'.styles = d.styles ∧ d'.regions = d.regions ∧
      (d'.body = d.body ↔ ¬ AnyTouched doc) := by
  rw [C110_what_changes m pr hd res place doc d h hdiv]
  obtain ⟨ds, h1, h5, h2⟩ := convertDoc_ok h
  rcases h2 with ⟨h2, _⟩ | ⟨_, out, sh, h2, h3, h4⟩
  · rw [hdiv] at h2; cases h2
  obtain ⟨c, e1, _⟩ := wconv_again h2
  simp only at e1
  have hr : convertDoc m pr hd res place (marked (fontId pr) doc) =
      .ok ⟨convStyles hd ++ sh.map (autoDStyle (fontId pr)), withDefaultRegion ds, some c⟩ := by
    rw [convertDoc, h1]
    simp only
    rw [if_pos (by rw [marked_forget_div]; exact hdiv)]
    simp only [e1]
  refine ⟨_, hr, h4.symm, h5.symm, ?_⟩
  simp only [h3, Option.some.injEq]
  rw [anyTouched_iff, Decidable.not_not]
  constructor
  · intro he
    have w1 := wconv_refs h2
    have w2 := wconv_refs e1
    have w3 := marked_refs (fontId pr) doc
    simp only at w1 w2
    rw [he] at w2
    omega
  · intro h0
    rw [marked_none _ _ h0] at e1
    rw [h2] at e1
    cases e1
    rfl

/-! ### Validation of the document afterwards -/

mutual
/-- Every style reference names a style. -/
def Found (sh : Style.Sheet) : Node Att → Prop
  | .elem a kids => (∀ s ∈ a.style, find sh s ≠ none) ∧ FoundL sh kids
  | _ => True
def FoundL (sh : Style.Sheet) : List (Node Att) → Prop
  | [] => True
  | k :: ks => Found sh k ∧ FoundL sh ks
end

theorem refStyles_found {hd : Head} {refs l : List Name} (h : refStyles hd refs = .ok l) : ∀ s ∈ refs, find hd.sheet s ≠ none := by
  intro s hs he
  have hc : ∃ l, (collect hd.sheet [] refs).1 = .ok l := by
    unfold refStyles at h
    cases hq : (collect hd.sheet [] refs).1 with
    | ok l => exact ⟨l, rfl⟩
    | error e => rw [hq] at h; cases h
  exact ((C29_succeeds_iff .init refs).1 hc s hs).2 ⟨s, .refl s, he⟩

mutual
theorem present_found {hd : Head} {infos : List RInfo} : ∀ {n : Node Att} {c : Style.Ctx} {parent : Option Computed} {r : Style.Ctx × Node PLab},
    present hd infos c parent n = .ok r → Found hd.sheet n
  | .text s, c, parent, r, _ => by rw [Found]; · trivial
                                   · intros; contradiction
  | .br, c, parent, r, _ => by rw [Found]; · trivial
                               · intros; contradiction
  | .elem a kids, c, parent, r, h => by
    obtain ⟨rg, refd, q, _, h2, h3, _⟩ := present_elem h
    rw [Found]
    exact ⟨refStyles_found h2, presentL_found h3⟩
theorem presentL_found {hd : Head} {infos : List RInfo} : ∀ {ks : List (Node Att)} {c : Style.Ctx} {parent : Option Computed}
    {r : Style.Ctx × List (Node PLab)}, presentL hd infos c parent ks = .ok r → FoundL hd.sheet ks
  | [], c, parent, r, _ => by rw [FoundL]; trivial
  | k :: ks, c, parent, r, h => by
    obtain ⟨q, qs, h1, h2, _⟩ := presentL_cons h
    rw [FoundL]
    exact ⟨present_found h1, presentL_found h2⟩
end

mutual
theorem found_untouched {sh : Style.Sheet} {nm : Rat → Name} (hn : ∀ q, find sh (nm q) = none) : ∀ {n : Node PLab},
    Found sh (forget (marked nm n)) → touches n = 0
  | .text s, _ => by rw [touches]; intros; contradiction
  | .br, _ => by rw [touches]; intros; contradiction
  | .elem x kids, h => by
    rw [marked, forget, Found] at h
    rw [touches]
    exact foundL_untouched hn h.2
theorem foundL_untouched {sh : Style.Sheet} {nm : Rat → Name} (hn : ∀ q, find sh (nm q) = none) {parent : PLab} : ∀ {ks : List (Node PLab)},
    FoundL sh (forgetL (markedL nm parent ks)) → touchesL parent ks = 0
  | [], _ => by rw [touchesL]
  | k :: ks, h => by
    rw [markedL, forgetL, FoundL] at h
    have ih := foundL_untouched hn h.2
    rw [touchesL, ih]
    have hk := h.1
    cases k with
    | text s => simp only [touch, touches]
    | br => simp only [touch, touches]
    | elem x kids =>
      have h0 : Found sh (forget (marked nm (.elem x kids))) ∧ touch parent (.elem x kids) = 0 := by
        rw [marked] at hk ⊢
        rw [touch]
        by_cases ht : Touched parent x
        · exfalso
          obtain ⟨q, hq⟩ := Option.isSome_iff_exists.1 ht.2
          rw [mark, if_neg ht.1, hq, forget, Found] at hk
          exact hk.1 (nm q) (by simp) (hn q)
        · rw [mark_none ht] at hk
          rw [if_neg ht]
          exact ⟨hk, rfl⟩
      rw [h0.2, found_untouched hn h0.1]
end

/-- C110: if a p or span has both style references and a font size that is not that of its surroundings, the document that was valid
before it was encoded is not valid any more: it refers to a style it does not have. -/
theorem C110_invalid_afterwards (m : Media) (pr : Rat → List Char) (hd : Head) (res : Rat × Rat) (place : Name → List Char × List Char) (doc : Node PLab)
    (d : DDoc) (h : convertDoc m pr hd res place doc = .ok d) (hdiv : hasDiv (forget doc) = true) (hc : NoClash hd) :
    AnyTouched doc → ∀ r, presentDoc hd (forget (convertShared m pr hd res place doc).1) ≠ .ok r := by
  intro ht r hr
  rw [C110_what_changes m pr hd res place doc d h hdiv] at hr
  obtain ⟨infos, n⟩ := r
  obtain ⟨_, c, hp⟩ := presentDoc_ok hr
  refine (anyTouched_iff doc).1 ht (found_untouched (nm := fontId pr) ?_ (present_found hp))
  intro q
  cases hf : find hd.sheet (fontId pr q) with
  | none => rfl
  | some l =>
    exfalso
    unfold find at hf
    obtain ⟨p, hp, _⟩ := Option.map_eq_some_iff.1 hf
    have h1 := List.mem_of_find?_eq_some hp
    have h2 := List.find?_some hp
    simp only [decide_eq_true_eq] at h2
    exact hc p h1 ⟨pr q, by rw [h2]; rfl⟩

/-- C110: otherwise it is as valid as before. -/
theorem C110_valid_afterwards_partial (m : Media) (pr : Rat → List Char) (hd : Head) (res : Rat × Rat) (place : Name → List Char × List Char)
    (body : Node Att) (infos : List RInfo) (doc : Node PLab) (hv : presentDoc hd body = .ok (infos, doc)) (ht : ¬ AnyTouched doc)
    (d : DDoc) (h : convertDoc m pr hd res place doc = .ok d) :
    (convertShared m pr hd res place doc).1 = doc ∧ presentDoc hd (forget (convertShared m pr hd res place doc).1) = .ok (infos, doc) := by
  have hs : (convertShared m pr hd res place doc).1 = doc := by
    cases hdiv : hasDiv (forget doc) with
    | true => exact (C110_unchanged_iff m pr hd res place doc d h hdiv).2 ht
    | false => exact C110_no_div m pr hd res place doc hdiv
  obtain ⟨_, c, hp⟩ := presentDoc_ok hv
  rw [hs]
  refine ⟨rfl, ?_⟩
  have := present_forget hp
  simp only at this
  rw [this, hv]

/-! ### Examples -/

/-- The times are media times. -/
def exMediaTimes : Media := { base := .media, zero := 0, rd := Time.exactReader }

/-- What is asked of a validated document. -/
def asked {α : Type} (body : Node Att) (f : Node PLab → α) : Option α := (presentDoc exLook body).toOption.map (fun r => f r.2)

/-- The style references of the first span. -/
def spanRefs (n : Node Att) : Option (List Name) :=
  (pick n [0, 0, 0]).bind (fun r => match r.2 with
    | .elem a _ => some a.style
    | _ => none)

/-- The document after it was encoded. -/
def exAfter (n : Node PLab) : Node PLab := (convertShared exMediaTimes exPr exLook (40, 20) exPlace n).1

/-- The document of `WholeCases` with a span that halves the font size meets the hypotheses: it can be encoded, it has a div and one
of its elements is touched. -/
example : asked exLooked (fun n => ((convertDoc exMediaTimes exPr exLook (40, 20) exPlace n).toOption.isSome, hasDiv (forget n), touches n)) =
    some (true, true, 1) := by decide +kernel

/-- Without the style reference of the span, nothing is touched, although the p has a font size of two cells. -/
example : asked (oneP [] []) (fun n => ((convertDoc exMediaTimes exPr exLook (40, 20) exPlace n).toOption.isSome, touches n,
    ((convertDoc exMediaTimes exPr exLook (40, 20) exPlace n).toOption.map (fun d => d.styles.length)))) = some (true, 0, some 3) := by decide +kernel

set_option synthInstance.maxSize 1000 in
/-- **C110 is false of the code**: encoding a valid document changes it.  The references of the span before and after, whether the
document is still valid, and the references of the span in what a second encoding gives. -/
theorem C110_false_unchanged : ∃ hd body, Flat hd ∧ NoClash hd ∧ shaped body = true ∧
    (presentDoc hd body).toOption.map (fun r =>
      let after := (convertShared exMediaTimes exPr hd (40, 20) exPlace r.2).1
      (spanRefs (forget r.2), spanRefs (forget after), (presentDoc hd (forget after)).toOption.isSome,
        ((convertDoc exMediaTimes exPr hd (40, 20) exPlace after).toOption.bind (·.body)).bind spanRefs)) =
    some (some ["red".toList], some [fontId exPr 50, "red".toList], false, some [fontId exPr 50, fontId exPr 50, "red".toList]) := by
  refine ⟨exLook, exLooked, ?_, ?_, by decide, by decide +kernel⟩ <;> (intro p hp; revert p; decide +kernel)

end Verif.Convert
