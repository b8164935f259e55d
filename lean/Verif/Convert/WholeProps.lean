import Verif.Convert.WholeLemmas

/-! Theorems about the conversion of whole documents to EBU-TT-D (C73 to C76, and C43 for whole documents). -/
namespace Verif.Convert

open Verif.Doc Verif.Style

/-! ### Specification: what an EBU-TT-D document says about its elements -/

/-- The attributes of the style of a name. -/
def dFind (d : DDoc) (n : Name) : Option Specified := (d.styles.find? (fun s => decide (s.id = n))).map (·.own)

/-- The value that references stand for: that of the first style that sets the attribute. (The reading of this toolkit, as in
`GivesList`.) -/
def dGives {α : Type} (d : DDoc) (f : Specified → Option α) (refs : List Name) : Option α :=
  firstOf (refs.map (fun n => (dFind d n).bind f))

/-- The region that the last of the given elements, outermost first, is shown in. -/
def dRegion (d : DDoc) (path : List Att) : Option DRegion :=
  (nearest path).bind (fun r => d.regions.find? (fun q => decide (q.id = r)))

/-- The value of an inherited attribute of the last of the given elements: the first found going from the element outwards, then
that of its region, then the initial value. -/
def dValue (d : DDoc) (path : List Att) (x : IAttr) : Option Val :=
  (firstOf (path.reverse.map (fun a => dGives d (·.inh x) a.style) ++
    [(dRegion d path).bind (fun r => dGives d (·.inh x) r.refs)])).or (initial x)

/-- The font size in cells of the last of the given elements: from one cell, the font size of the region and those of the elements from the
outside in are applied. -/
def dSize (d : DDoc) (path : List Att) : Rat × Rat :=
  (((dRegion d path).bind (fun r => dGives d (·.fs) r.refs)) :: path.map (fun a => dGives d (·.fs) a.style)).foldl (applySize ⟨0, 0⟩) (1, 1)

/-- Colours are written in numbers. -/
def recolor : IAttr → Val → Val
  | .color, v => rgba v
  | _, v => v

/-- No style refers to other styles. -/
def Flat (hd : Head) : Prop := ∀ p ∈ hd.sheet, p.2 = []

/-- No style of the document has an identifier like those of generated styles. -/
def NoClash (hd : Head) : Prop := ∀ p ∈ hd.sheet, ¬ "autogenFontStyle_None_".toList <+: p.1

mutual
/-- A document without its style references. -/
def unstyled : Node Att → Node Att
  | .elem a kids => .elem { a with style := [] } (unstyledL kids)
  | n => n
def unstyledL : List (Node Att) → List (Node Att)
  | [] => []
  | k :: ks => unstyled k :: unstyledL ks
end

/-! ### Lemmas: content -/

theorem unstyled_addRef (nm : Rat → Name) (o : Option Rat) (n : Node Att) : unstyled (addRef nm o n) = unstyled n := by
  cases n <;> rfl

mutual
theorem same_conv {m : Media} {nm : Rat → Name} {sh : Convert.Sheet} : ∀ {n : Node PLab} {n' : Node Att}, Same m nm sh n n' →
    ∃ c, conv m (forget n) = .ok c ∧ unstyled n' = unstyled c
  | .text s, n', h => by rw [Same] at h; subst h; exact ⟨_, rfl, rfl⟩
  | .br, n', h => by rw [Same] at h; subst h; exact ⟨_, rfl, rfl⟩
  | .elem x ks, n', h => by
    rw [Same] at h
    obtain ⟨a, ks', h1, h2, h3, h4⟩ := h
    obtain ⟨cs, hc, he⟩ := sameL_conv h4
    have hall : cs.all (fitsD x.att.kind) = true := by
      have gen : ∀ (l l' : List (Node Att)), unstyledL l = unstyledL l' → l.all (fitsD x.att.kind) = l'.all (fitsD x.att.kind) := by
        intro l
        induction l with
        | nil => intro l' h; cases l' with
          | nil => rfl
          | cons k l' => simp [unstyledL] at h
        | cons k l ih =>
          intro l' h
          cases l' with
          | nil => simp [unstyledL] at h
          | cons k' l' =>
            simp only [unstyledL, List.cons.injEq] at h
            rw [List.all_cons, List.all_cons, ih l' h.2]
            congr 1
            have hh := h.1
            cases k <;> cases k' <;> simp [unstyled] at hh
            · simp [fitsD]
            · simp [fitsD]
            · rename_i a1 k1 a2 k2
              have : a1.kind = a2.kind := hh.1.1
              simp [fitsD, this]
      rw [← gen _ _ he]; exact h3
    refine ⟨.elem a cs, ?_, ?_⟩
    · rw [forget, conv]
      simp only [bind, Except.bind, hc, h2]
      rw [if_pos hall]
      rfl
    · rw [h1, unstyled, unstyled, he]
theorem sameL_conv {m : Media} {nm : Rat → Name} {sh : Convert.Sheet} {parent : PLab} : ∀ {ks : List (Node PLab)} {ks' : List (Node Att)},
    SameL m nm sh parent ks ks' → ∃ cs, convL m (forgetL ks) = .ok cs ∧ unstyledL ks' = unstyledL cs
  | [], ks', h => by rw [SameL] at h; subst h; exact ⟨_, rfl, rfl⟩
  | k :: ks, ks', h => by
    rw [SameL] at h
    obtain ⟨k0, o, ks1, h1, h2, _, h4⟩ := h
    obtain ⟨c, hc, he⟩ := same_conv h2
    obtain ⟨cs, hcs, hes⟩ := sameL_conv h4
    refine ⟨c :: cs, ?_, ?_⟩
    · rw [forgetL, convL]
      simp only [bind, Except.bind, hc, hcs]
      rfl
    · rw [h1, unstyledL, unstyledL, unstyled_addRef, he, hes]
end

theorem items_unstyled : ∀ (ks : List (Node Att)), items (unstyledL ks) = items ks
  | [] => rfl
  | k :: ks => by
    cases k <;> simp [unstyledL, unstyled, items, items_unstyled ks]

theorem leaf_unstyled (a : Att) (ks : List (Node Att)) : Leaf Att.kind { a with style := [] } (unstyledL ks) = Leaf Att.kind a ks := by
  have : ∀ ks : List (Node Att), (unstyledL ks).any (isSpan Att.kind) = ks.any (isSpan Att.kind) := by
    intro ks
    induction ks with
    | nil => rfl
    | cons k ks ih => cases k <;> simp [unstyledL, unstyled, isSpan, ih]
  simp only [Leaf, this]

def bare (a : Att) : Att := { a with style := [] }

theorem on_bare : ∀ (l : List Att) (t : Int), on t (l.map bare) = on t l
  | [], _ => rfl
  | a :: l, t => by
    rw [List.map_cons, on, on, on_bare l]
    rfl

mutual
theorem leaves_unstyled : ∀ (n : Node Att), pathLeaves (unstyled n) = (pathLeaves n).map (fun l => (l.1.map bare, l.2))
  | .text _ => rfl
  | .br => rfl
  | .elem a kids => by
    rw [unstyled, pathLeaves, pathLeaves, leaf_unstyled, items_unstyled, leavesL_unstyled kids]
    split
    · split <;> rfl
    · simp [List.map_map, Function.comp_def, bare]
theorem leavesL_unstyled : ∀ (ks : List (Node Att)), pathLeavesL (unstyledL ks) = (pathLeavesL ks).map (fun l => (l.1.map bare, l.2))
  | [] => rfl
  | k :: ks => by rw [unstyledL, pathLeavesL, pathLeavesL, List.map_append, leaves_unstyled k, leavesL_unstyled ks]
end

theorem written_unstyled (n : Node Att) (t : Int) : writtenAt (unstyled n) t = writtenAt n t := by
  rw [writtenAt, writtenAt, leaves_unstyled, List.filter_map, List.map_map]
  congr 1
  · apply List.filter_congr
    intro l _
    simp [on_bare]

mutual
theorem items_unstyled_all : ∀ (n : Node Att), allItems (unstyled n) = allItems n
  | .text _ => rfl
  | .br => rfl
  | .elem a kids => by rw [unstyled, allItems, allItems, itemsL_unstyled_all kids]
theorem itemsL_unstyled_all : ∀ (ks : List (Node Att)), allItemsL (unstyledL ks) = allItemsL ks
  | [] => rfl
  | k :: ks => by rw [unstyledL, allItemsL, allItemsL, items_unstyled_all k, itemsL_unstyled_all ks]
end

theorem convertDoc_ok {m : Media} {pr : Rat → List Char} {hd : Head} {res : Rat × Rat} {place : Name → List Char × List Char}
    {doc : Node PLab} {d : DDoc} (h : convertDoc m pr hd res place doc = .ok d) :
    ∃ ds, convRegions res place hd.regions = .ok ds ∧ d.regions = withDefaultRegion ds ∧
      ((hasDiv (forget doc) = false ∧ d.styles = convStyles hd ∧ d.body = none) ∨
       hasDiv (forget doc) = true ∧ ∃ out sh, wconv m (fontId pr) doc [] = .ok (out, sh) ∧ d.body = some out ∧
        d.styles = convStyles hd ++ sh.map (autoDStyle (fontId pr))) := by
  rw [convertDoc] at h
  cases h1 : convRegions res place hd.regions with
  | error e => rw [h1] at h; cases h
  | ok ds =>
    rw [h1] at h
    simp only at h
    split at h
    · rename_i hdv
      cases h2 : wconv m (fontId pr) doc [] with
      | error e => rw [h2] at h; cases h
      | ok r =>
        obtain ⟨out, sh⟩ := r
        rw [h2] at h
        cases h
        exact ⟨ds, rfl, rfl, .inr ⟨hdv, out, sh, rfl, rfl, rfl⟩⟩
    · rename_i hdv
      cases h
      exact ⟨ds, rfl, rfl, .inl ⟨by simpa using hdv, rfl, rfl⟩⟩

theorem convertDoc_body {m : Media} {pr : Rat → List Char} {hd : Head} {res : Rat × Rat} {place : Name → List Char × List Char}
    {doc : Node PLab} {d : DDoc} {out : Node Att} (h : convertDoc m pr hd res place doc = .ok d) (hb : d.body = some out) :
    ∃ ds sh, convRegions res place hd.regions = .ok ds ∧ d.regions = withDefaultRegion ds ∧ d.styles = convStyles hd ++ sh.map (autoDStyle (fontId pr)) ∧
      Keyed sh ∧ Same m (fontId pr) sh doc out ∧ hasDiv (forget doc) = true := by
  obtain ⟨ds, h1, h2, h3⟩ := convertDoc_ok h
  rcases h3 with ⟨_, _, h5⟩ | ⟨h4, out', sh, h5, h6, h7⟩
  · rw [h5] at hb; cases hb
  · rw [h6] at hb
    cases hb
    obtain ⟨_, g2, g3⟩ := wconv_same h5 (by intro k a ha; simp [Sheet.get] at ha)
    exact ⟨ds, sh, h1, h2, h7, g2, g3, h4⟩

/-! ### C43 for whole documents -/

/-- C43: what the converted document contains apart from style references, that is its elements with their identifiers, regions and
times, and its text, is what the conversion of the content alone gives: generated styles change nothing else, and no element is
dropped because of its size. -/
theorem C43_whole_document (m : Media) (pr : Rat → List Char) (hd : Head) (res : Rat × Rat) (place : Name → List Char × List Char)
    (doc : Node PLab) (d : DDoc) (h : convertDoc m pr hd res place doc = .ok d) :
    ∃ o, convertBody m (forget doc) = .ok o ∧ d.body.map unstyled = o.map unstyled := by
  obtain ⟨ds, h1, h2, h3⟩ := convertDoc_ok h
  rcases h3 with ⟨h4, _, h5⟩ | ⟨h4, out, sh, h5, h6, _⟩
  · exact ⟨none, by rw [convertBody, if_neg (by simp [h4])], by rw [h5]⟩
  · obtain ⟨_, _, g3⟩ := wconv_same h5 (by intro k a ha; simp [Sheet.get] at ha)
    obtain ⟨c, hc, he⟩ := same_conv g3
    refine ⟨some c, ?_, ?_⟩
    · rw [convertBody, if_pos h4, hc]; rfl
    · rw [h6, Option.map_some, Option.map_some, he]

/-- C43: the whole conversion keeps the text and shows it at the same times as `C43_shown_alike_partial` says of the content alone (missing: the
same as there). -/
theorem C43_whole_shown_alike_partial (m : Media) (hrd : m.rd.Accurate) (hz0 : 0 ≤ m.zero) (hz : m.base = .clock → m.zero % 1000 = 0)
    (avail : Int) (hd : Head) (body : Node Att) (infos : List RInfo) (doc : Node PLab) (hdoc : presentDoc hd body = .ok (infos, doc))
    (hs : shaped body = true) (hp : plainTimes body = true) (hc : containersUntimed body = true) (hms : inMs body = true)
    (h1 : m.base = .clock → beginsOnce body = true) (timed : Node Lab) (hv : validateDoc avail body = .ok timed)
    (pr : Rat → List Char) (res : Rat × Rat) (place : Name → List Char × List Char) (d : DDoc) (out : Node Att)
    (h : convertDoc m pr hd res place doc = .ok d) (hb : d.body = some out) :
    allItems out = allItems body ∧ ∀ t, avail ≤ t → m.shift ≤ t → shownAt timed t = writtenAt out (t - m.shift) := by
  obtain ⟨_, c, hpr⟩ := presentDoc_ok hdoc
  have hf : forget doc = body := present_forget hpr
  obtain ⟨o, ho, he⟩ := C43_whole_document m pr hd res place doc d h
  rw [hb, Option.map_some] at he
  cases o with
  | none => cases he
  | some c' =>
    simp only [Option.map_some, Option.some.injEq] at he
    rw [hf] at ho
    constructor
    · rw [← items_unstyled_all out, he, items_unstyled_all]
      have h2 := ho
      rw [convertBody] at h2
      split at h2
      · cases hcv : conv m body with
        | error e => rw [hcv] at h2; cases h2
        | ok n' =>
          rw [hcv] at h2
          cases h2
          exact conv_items hcv
      · cases h2
    · intro t h3 h4
      rw [C43_shown_alike_partial m hrd hz0 hz avail body hs hp hc hms h1 timed hv c' ho t h3 h4, ← written_unstyled c', ← he,
        written_unstyled]

/-! ### Lemmas: styles -/

theorem find_flat {sh : Style.Sheet} (hf : ∀ p ∈ sh, p.2 = []) {a : Name} {refs : List Name} (h : find sh a = some refs) : refs = [] := by
  rw [find] at h
  cases h1 : sh.find? (fun s => decide (s.1 = a)) with
  | none => rw [h1] at h; cases h
  | some p =>
    rw [h1] at h
    cases h
    exact hf p (List.mem_of_find?_eq_some h1)

theorem reaches_flat {sh : Style.Sheet} (hf : ∀ p ∈ sh, p.2 = []) {a b : Name} (h : Reaches sh a b) : a = b := by
  cases h with
  | refl => rfl
  | step hr _ =>
    obtain ⟨refs, h1, h2⟩ := hr
    rw [find_flat hf h1] at h2
    cases h2

theorem givesList_flat {α : Type} {sh : Style.Sheet} (hf : ∀ p ∈ sh, p.2 = []) (own : Name → Option α) (v : α) : ∀ (refs : List Name),
    GivesList sh own refs v ↔ firstOf (refs.map own) = some v
  | [] => by
    constructor
    · rintro ⟨pre, b, post, h, _⟩
      exact absurd h (by simp)
    · intro h; cases h
  | r :: refs => by
    have ih := givesList_flat hf own v refs
    cases ho : own r with
    | some w =>
      constructor
      · rintro ⟨pre, b, post, h1, h2, h3⟩
        have hr : b = r := by
          cases pre with
          | nil => simp only [List.nil_append, List.cons.injEq] at h1; exact h1.1.symm
          | cons c pre =>
            simp only [List.cons_append, List.cons.injEq] at h1
            have := h2 c (by simp) c (.refl c)
            rw [← h1.1, ho] at this
            cases this
        rw [hr] at h3
        cases h3 with
        | own h => rw [ho] at h; cases h; simp [firstOf, ho]
        | ref h _ _ _ => rw [ho] at h; cases h
      · intro h
        simp only [List.map_cons, ho, firstOf, Option.some.injEq] at h
        exact ⟨[], r, refs, rfl, by simp, .own (by rw [ho, h])⟩
    | none =>
      rw [List.map_cons, ho, firstOf, ← ih]
      constructor
      · rintro ⟨pre, b, post, h1, h2, h3⟩
        cases pre with
        | nil =>
          simp only [List.nil_append, List.cons.injEq] at h1
          cases h3 with
          | own h => rw [← h1.1, ho] at h; cases h
          | ref _ h _ _ =>
            have := find_flat hf h
            simp at this
        | cons c pre =>
          simp only [List.cons_append, List.cons.injEq] at h1
          exact ⟨pre, b, post, h1.2, fun c' hc' => h2 c' (List.mem_cons_of_mem _ hc'), h3⟩
      · rintro ⟨pre, b, post, h1, h2, h3⟩
        refine ⟨r :: pre, b, post, by rw [h1]; rfl, ?_, h3⟩
        intro c hc x hx
        rcases List.mem_cons.1 hc with e | e
        · rw [← reaches_flat hf hx, e]; exact ho
        · exact h2 c e x hx

theorem refs_known {hd : Head} {refs l : List Name} (h : refStyles hd refs = .ok l) : ∀ n ∈ refs, ∃ p ∈ hd.sheet, p.1 = n := by
  intro n hn
  rw [refStyles] at h
  cases hc : (collect hd.sheet [] refs).1 with
  | error e => rw [hc] at h; cases h
  | ok l' =>
    have hdang := (((C29_succeeds_iff .init refs).1 ⟨l', hc⟩) n hn).2
    cases hf : find hd.sheet n with
    | none => exact absurd ⟨n, .refl n, hf⟩ hdang
    | some q =>
      rw [find] at hf
      cases h1 : hd.sheet.find? (fun s => decide (s.1 = n)) with
      | none => rw [h1] at hf; cases hf
      | some p =>
        have := List.find?_some h1
        exact ⟨p, List.mem_of_find?_eq_some h1, by simpa using this⟩

theorem convStyles_find (hd : Head) (n : Name) (hn : ∃ p ∈ hd.sheet, p.1 = n) :
    (convStyles hd).find? (fun s => decide (s.id = n)) = some ⟨n, convSpec (hd.own n)⟩ := by
  have hne : hd.sheet ≠ [] := by
    obtain ⟨p, hp, _⟩ := hn
    intro h; rw [h] at hp; cases hp
  rw [convStyles, if_neg hne]
  have gen : ∀ l : Style.Sheet, (∃ p ∈ l, p.1 = n) →
      (l.map (fun p => (⟨p.1, convSpec (hd.own p.1)⟩ : DStyle))).find? (fun s => decide (s.id = n)) = some ⟨n, convSpec (hd.own n)⟩ := by
    intro l
    induction l with
    | nil => rintro ⟨p, hp, _⟩; cases hp
    | cons q l ih =>
      rintro ⟨p, hp, he⟩
      rw [List.map_cons, List.find?_cons]
      by_cases hq : q.1 = n
      · simp [hq]
      · simp only [hq, decide_false]
        refine ih ⟨p, ?_, he⟩
        rcases List.mem_cons.1 hp with e | e
        · exact absurd (e ▸ he) hq
        · exact e
  exact gen hd.sheet hn

theorem dFind_source {hd : Head} {d : DDoc} {more : List DStyle} (hs : d.styles = convStyles hd ++ more) {n : Name}
    (hn : ∃ p ∈ hd.sheet, p.1 = n) : dFind d n = some (convSpec (hd.own n)) := by
  rw [dFind, hs, List.find?_append, convStyles_find hd n hn]
  rfl

theorem fontId_inj {pr : Rat → List Char} (hpr : Function.Injective pr) : Function.Injective (fontId pr) := by
  intro a b h
  exact hpr (List.append_cancel_left h)

theorem default_ne (l : List Char) : "style.default".toList ≠ "autogenFontStyle_None_".toList ++ l := by
  intro h
  have h1 := congrArg List.head? h
  have h2 : "style.default".toList.head? = some 's' := by decide
  have h3 : "autogenFontStyle_None_".toList.head? = some 'a' := by decide
  rw [List.head?_append, h2, h3, Option.some_or] at h1
  exact absurd h1 (by decide)

theorem convStyles_ids {hd : Head} {pr : Rat → List Char} (hc : NoClash hd) (k : Rat) : ∀ s ∈ convStyles hd, s.id ≠ fontId pr k := by
  intro s hs he
  rw [convStyles] at hs
  split at hs
  · rw [List.mem_singleton] at hs
    rw [hs] at he
    exact default_ne _ he
  · obtain ⟨p, hp, hps⟩ := List.mem_map.1 hs
    rw [← hps] at he
    exact hc p hp ⟨pr k, he.symm⟩

theorem dFind_auto {hd : Head} {d : DDoc} {pr : Rat → List Char} {sh : Convert.Sheet} (hs : d.styles = convStyles hd ++ sh.map (autoDStyle (fontId pr)))
    (hc : NoClash hd) (hpr : Function.Injective pr) (k : Rat) : dFind d (fontId pr k) = (sh.get k).map (fun a => (autoDStyle (fontId pr) a).own) := by
  have h1 : (convStyles hd).find? (fun s => decide (s.id = fontId pr k)) = none := by
    rw [List.find?_eq_none]
    intro s hss
    simpa using convStyles_ids hc k s hss
  rw [dFind, hs, List.find?_append, h1, Option.none_or, List.find?_map, Option.map_map, Sheet.get]
  congr 2
  funext a
  simp only [Function.comp_apply, autoDStyle]
  by_cases h : a.id = k
  · simp [h]
  · have : fontId pr a.id ≠ fontId pr k := fun e => h (fontId_inj hpr e)
    simp [h, this]

theorem firstOf_eq_none {α : Type} : ∀ (l : List (Option α)), (∀ o ∈ l, o = none) → firstOf l = none
  | [], _ => rfl
  | o :: l, h => by rw [h o (by simp), firstOf]; exact firstOf_eq_none l (fun o ho => h o (List.mem_cons_of_mem _ ho))

theorem firstOf_map {α β : Type} (f : α → β) : ∀ (l : List (Option α)), firstOf (l.map (Option.map f)) = (firstOf l).map f
  | [] => rfl
  | some v :: l => rfl
  | none :: l => by rw [List.map_cons, Option.map_none, firstOf, firstOf]; exact firstOf_map f l

/-- What references to styles of the document give in the converted document. -/
theorem dGives_source {hd : Head} {d : DDoc} {more : List DStyle} (hs : d.styles = convStyles hd ++ more) {α : Type} (f : Specified → Option α) :
    ∀ {refs : List Name}, (∀ n ∈ refs, ∃ p ∈ hd.sheet, p.1 = n) → dGives d f refs = firstOf (refs.map (fun n => f (convSpec (hd.own n)))) := by
  intro refs hr
  rw [dGives]
  congr 1
  apply List.map_congr_left
  intro n hn
  rw [dFind_source hs (hr n hn)]
  rfl

theorem dGives_append (d : DDoc) {α : Type} (f : Specified → Option α) (a b : List Name) : dGives d f (a ++ b) = (dGives d f a).or (dGives d f b) := by
  rw [dGives, List.map_append, firstOf_append]
  rfl

/-! ### Lemmas: regions -/

theorem convRegions_forall {res : Rat × Rat} {place : Name → List Char × List Char} : ∀ {rs : List RegionDef} {ds : List DRegion},
    convRegions res place rs = .ok ds → List.Forall₂ (fun r q => convRegion res place r = .ok q) rs ds
  | [], ds, h => by rw [convRegions] at h; cases h; exact .nil
  | r :: rs, ds, h => by
    rw [convRegions] at h
    cases h1 : convRegion res place r with
    | error e => rw [h1] at h; cases h
    | ok q =>
      rw [h1] at h
      simp only at h
      cases h2 : convRegions res place rs with
      | error e => rw [h2] at h; cases h
      | ok qs =>
        rw [h2] at h
        cases h
        exact .cons h1 (convRegions_forall h2)

theorem convRegion_ok {res : Rat × Rat} {place : Name → List Char × List Char} {r : RegionDef} {q : DRegion} (h : convRegion res place r = .ok q) :
    ∃ o e, Verif.Size.readOrigin (place r.id).1 = some o ∧ Verif.Size.readExtent (place r.id).2 = some e ∧
      q = ⟨r.id, r.refs, r.padding, convPlace res o, convPlace res e⟩ := by
  rw [convRegion] at h
  cases h1 : Verif.Size.readOrigin (place r.id).1 with
  | none => rw [h1] at h; cases h
  | some o =>
    cases h2 : Verif.Size.readExtent (place r.id).2 with
    | none => rw [h1, h2] at h; cases h
    | some e =>
      rw [h1, h2] at h
      cases h
      exact ⟨o, e, rfl, rfl, rfl⟩

theorem convRegions_find {res : Rat × Rat} {place : Name → List Char × List Char} {n : Name} : ∀ {rs : List RegionDef} {ds : List DRegion},
    List.Forall₂ (fun r q => convRegion res place r = .ok q) rs ds → (rs.map (·.id)).Nodup →
    ∀ r ∈ rs, r.id = n → ∃ q, convRegion res place r = .ok q ∧ (withDefaultRegion ds).find? (fun q => decide (q.id = n)) = some q
  | [], ds, _, _, r, hr, _ => by cases hr
  | r0 :: rs, _, .cons (b := q0) (l₂ := ds) h1 h2, hn, r, hr, he => by
    obtain ⟨o, e, _, _, hq⟩ := convRegion_ok h1
    have hid : q0.id = r0.id := by rw [hq]
    have hw : withDefaultRegion (q0 :: ds) = q0 :: ds := rfl
    rw [hw, List.find?_cons, hid]
    simp only [List.map_cons, List.nodup_cons] at hn
    rcases List.mem_cons.1 hr with e' | e'
    · subst e'
      exact ⟨q0, h1, by simp [he]⟩
    · have hne : r0.id ≠ n := by
        intro h
        apply hn.1
        rw [h, ← he]
        exact List.mem_map.2 ⟨r, e', rfl⟩
      obtain ⟨q, g1, g2⟩ := convRegions_find h2 hn.2 r e' he
      refine ⟨q, g1, ?_⟩
      simp only [hne, decide_false]
      cases h2 with
      | nil => cases e'
      | cons _ _ => exact g2

theorem presentRegions_mem {hd : Head} : ∀ {rs : List RegionDef} {infos : List RInfo}, presentRegions hd rs = .ok infos →
    ∀ i ∈ infos, ∃ r ∈ rs, presentRegion hd r = .ok i
  | [], infos, h, i, hi => by rw [presentRegions] at h; cases h; cases hi
  | r :: rs, infos, h, i, hi => by
    rw [presentRegions] at h
    cases h1 : presentRegion hd r with
    | error e => rw [h1] at h; cases h
    | ok j =>
      cases h2 : presentRegions hd rs with
      | error e => rw [h1, h2] at h; cases h
      | ok js =>
        rw [h1, h2] at h
        cases h
        rcases List.mem_cons.1 hi with e | e
        · subst e; exact ⟨r, by simp, h1⟩
        · obtain ⟨r', h3, h4⟩ := presentRegions_mem h2 i e
          exact ⟨r', List.mem_cons_of_mem _ h3, h4⟩

theorem presentRegions_all {hd : Head} : ∀ {rs : List RegionDef} {infos : List RInfo}, presentRegions hd rs = .ok infos →
    ∀ r ∈ rs, ∃ i, presentRegion hd r = .ok i
  | [], infos, h, r, hr => by cases hr
  | r :: rs, infos, h, r', hr => by
    rw [presentRegions] at h
    cases h1 : presentRegion hd r with
    | error e => rw [h1] at h; cases h
    | ok j =>
      cases h2 : presentRegions hd rs with
      | error e => rw [h1, h2] at h; cases h
      | ok js =>
        rcases List.mem_cons.1 hr with e | e
        · subst e; exact ⟨j, h1⟩
        · exact presentRegions_all h2 r' e

theorem presentRegion_ok {hd : Head} {r : RegionDef} {i : RInfo} (h : presentRegion hd r = .ok i) :
    i.id = r.id ∧ refStyles hd r.refs = .ok i.styles ∧ ∀ x, i.spec.inh x = (resolve hd.own i.styles).inh x := by
  rw [presentRegion] at h
  cases h3 : refStyles hd r.refs with
  | error e => rw [h3] at h; cases h
  | ok l =>
    rw [h3] at h
    cases h
    refine ⟨rfl, rfl, ?_⟩
    intro x
    simp [add]

theorem resolve_flat {hd : Head} (hf : Flat hd) {refs l : List Name} (h : refStyles hd refs = .ok l) :
    (∀ x, (resolve hd.own l).inh x = firstOf (refs.map (fun n => (hd.own n).inh x))) ∧
    ∀ x, (resolve hd.own l).simple x = firstOf (refs.map (fun n => (hd.own n).simple x)) := by
  rw [refStyles] at h
  cases hc : (collect hd.sheet [] refs).1 with
  | error err => rw [hc] at h; cases h
  | ok l' =>
    rw [hc] at h
    cases h
    have hsp := C30_specified_value Reached.init hc hd.own
    constructor
    · intro x
      apply Option.ext
      intro v
      rw [hsp.1 x v, givesList_flat hf]
    · intro x
      apply Option.ext
      intro v
      rw [hsp.2.1 x v, givesList_flat hf]

/-! ### Lemmas: paths -/

theorem convAtt_kind {m : Media} {a a' : Att} (h : convAtt m a = .ok a') :
    a'.kind = a.kind ∧ ownRegion a' = ownRegion a ∧ (a.kind ≠ .body → a'.id = a.id ∧ a'.style = a.style) ∧ (a.kind = .body → a'.style = []) := by
  unfold convAtt at h
  cases hk : a.kind with
  | body => rw [hk] at h; cases h; simp [ownRegion, hasRegion, hk]
  | div => rw [hk] at h; cases h; simp [ownRegion, hasRegion, hk]
  | p =>
    rw [hk] at h
    simp only [bind, Except.bind] at h
    cases h1 : mapTime m a.beg with
    | error e => rw [h1] at h; cases h
    | ok b =>
      rw [h1] at h
      simp only at h
      cases h2 : mapTime m a.fin with
      | error e => rw [h2] at h; cases h
      | ok e => rw [h2] at h; cases h; simp [ownRegion, hasRegion, hk]
  | span =>
    rw [hk] at h
    simp only [bind, Except.bind] at h
    cases h1 : mapTime m a.beg with
    | error e => rw [h1] at h; cases h
    | ok b =>
      rw [h1] at h
      simp only at h
      cases h2 : mapTime m a.fin with
      | error e => rw [h2] at h; cases h
      | ok e => rw [h2] at h; cases h; simp [ownRegion, hasRegion, hk]

theorem Step.facts {m : Media} {nm : Rat → Name} {sh : Convert.Sheet} {parent : Option PLab} {y : PLab} {b : Att} (h : Step m nm sh parent y b) :
    b.kind = y.att.kind ∧ ownRegion b = ownRegion y.att ∧ (y.att.kind ≠ .body → b.id = y.att.id) := by
  obtain ⟨a, o, h1, h2, _⟩ := h
  obtain ⟨g1, g2, g3, _⟩ := convAtt_kind h1
  rw [h2]
  exact ⟨g1, g2, fun hk => (g3 hk).1⟩

theorem Path.nearest {m : Media} {nm : Rat → Name} {sh : Convert.Sheet} : ∀ {ys : List PLab} {bs : List Att} {parent : Option PLab},
    Path m nm sh parent ys bs → Style.nearest bs = Style.nearest (ys.map (·.att))
  | [], bs, parent, h => by rw [Path] at h; subst h; rfl
  | y :: ys, bs, parent, h => by
    rw [Path] at h
    obtain ⟨b, bs', h1, h2, h3⟩ := h
    subst h1
    rw [List.map_cons, Style.nearest, Style.nearest, h3.nearest, h2.facts.2.1]

theorem Path.notBody {m : Media} {nm : Rat → Name} {sh : Convert.Sheet} : ∀ {ys : List PLab} {bs : List Att} {q : PLab},
    Path m nm sh (some q) ys bs → ∀ y ∈ ys, y.att.kind ≠ .body
  | [], bs, q, h, y, hy => by cases hy
  | z :: ys, bs, q, h, y, hy => by
    rw [Path] at h
    obtain ⟨b, bs', h1, h2, h3⟩ := h
    rcases List.mem_cons.1 hy with e | e
    · subst e
      intro hb
      have hk := h2.facts.1
      obtain ⟨a, o, _, _, _, hfit⟩ := h2
      have := hfit q rfl
      simp only [fitsD, hk, hb] at this
      cases hq : q.att.kind <;> rw [hq] at this <;> simp at this
    · exact h3.notBody y e

/-- The styles of an element, seen through the converted style sheet. -/
theorem step_gives {m : Media} {pr : Rat → List Char} {sh : Convert.Sheet} {parent : Option PLab} {y : PLab} {b : Att} {hd : Head} {d : DDoc}
    (h : Step m (fontId pr) sh parent y b) (hs : d.styles = convStyles hd ++ sh.map (autoDStyle (fontId pr))) (hc : NoClash hd)
    (hpr : Function.Injective pr) (hb : y.att.kind = .body → y.att.style = []) (hr : ∀ n ∈ y.att.style, ∃ p ∈ hd.sheet, p.1 = n)
    {α : Type} (f : Specified → Option α) (hf : ∀ a : Auto, f (autoDStyle (fontId pr) a).own = none) :
    dGives d f b.style = firstOf (y.att.style.map (fun n => f (convSpec (hd.own n)))) := by
  obtain ⟨a, o, h1, h2, _, _⟩ := h
  have hst : a.style = y.att.style := by
    obtain ⟨_, _, g3, g4⟩ := convAtt_kind h1
    by_cases hk : y.att.kind = .body
    · rw [g4 hk, hb hk]
    · exact (g3 hk).2
  rw [h2]
  show dGives d f ((o.map (fontId pr)).toList ++ a.style) = _
  rw [dGives_append, hst, dGives_source hs f hr]
  have : dGives d f (o.map (fontId pr)).toList = none := by
    cases o with
    | none => rfl
    | some k =>
      simp only [Option.map_some, Option.toList_some, dGives, List.map_cons, List.map_nil, dFind_auto hs hc hpr k]
      cases sh.get k with
      | none => rfl
      | some a => simp [hf, firstOf]
  rw [this, Option.none_or]

theorem path_gives {m : Media} {pr : Rat → List Char} {sh : Convert.Sheet} {hd : Head} {d : DDoc}
    (hs : d.styles = convStyles hd ++ sh.map (autoDStyle (fontId pr))) (hc : NoClash hd)
    (hpr : Function.Injective pr) {α : Type} (f : Specified → Option α) (hf : ∀ a : Auto, f (autoDStyle (fontId pr) a).own = none) :
    ∀ {ys : List PLab} {bs : List Att} {parent : Option PLab}, Path m (fontId pr) sh parent ys bs →
    (∀ y ∈ ys, (y.att.kind = .body → y.att.style = []) ∧ ∀ n ∈ y.att.style, ∃ p ∈ hd.sheet, p.1 = n) →
    bs.map (fun b => dGives d f b.style) = ys.map (fun y => firstOf (y.att.style.map (fun n => f (convSpec (hd.own n)))))
  | [], bs, parent, h, _ => by rw [Path] at h; subst h; rfl
  | y :: ys, bs, parent, h, hy => by
    rw [Path] at h
    obtain ⟨b, bs', h1, h2, h3⟩ := h
    subst h1
    rw [List.map_cons, List.map_cons, path_gives hs hc hpr f hf h3 (fun z hz => hy z (List.mem_cons_of_mem _ hz)),
      step_gives h2 hs hc hpr (hy y (by simp)).1 (hy y (by simp)).2 f hf]

theorem convSpec_inh (s : Specified) {x : IAttr} (hx : x ≠ .multiRowAlign) : (convSpec s).inh x = (s.inh x).map (recolor x) := by
  cases x <;> first | rfl | (exact absurd rfl hx) | (simp [convSpec]; cases s.inh _ <;> rfl)

/-- What is known of an element of a validated document. -/
theorem doc_refs {hd : Head} {body : Node Att} {infos : List RInfo} {doc : Node PLab} (hdoc : presentDoc hd body = .ok (infos, doc))
    (hs : shaped body = true) {anc : List PLab} {e : PLab} {kids : List (Node PLab)} (hr : Reach doc anc (.elem e kids)) :
    refStyles hd e.att.style = .ok e.referenced ∧ e.spec = resolve hd.own e.referenced := by
  obtain ⟨_, c, hp⟩ := presentDoc_ok hdoc
  have h2 := every_reach (present_recorded (anc := []) hp hs (by simp)) hr
  rw [Every] at h2
  exact ⟨h2.1.1, h2.1.2.1⟩

theorem doc_region {hd : Head} {body : Node Att} {infos : List RInfo} {doc : Node PLab} (hdoc : presentDoc hd body = .ok (infos, doc))
    {anc : List PLab} {e : PLab} {kids : List (Node PLab)} (hr : Reach doc anc (.elem e kids)) {i : RInfo} (hi : e.region = some i) :
    ∃ r ∈ hd.regions, presentRegion hd r = .ok i := by
  obtain ⟨hi', c, hp⟩ := presentDoc_ok hdoc
  have h2 := every_reach (present_known (anc := []) hp (by intro i hi; cases hi)) hr
  rw [Every] at h2
  exact presentRegions_mem hi' i (h2.1 i hi)

theorem Path.last {m : Media} {nm : Rat → Name} {sh : Convert.Sheet} : ∀ {l : List PLab} {l' : List Att} {parent : Option PLab} {e : PLab} {a : Att},
    Path m nm sh parent (l ++ [e]) (l' ++ [a]) → ∃ parent, Step m nm sh parent e a
  | [], l', parent, e, a, hpath => by
    rw [List.nil_append, Path] at hpath
    obtain ⟨b, bs', h1, h2, h3⟩ := hpath
    rw [Path] at h3
    subst h3
    cases l' with
    | nil => simp only [List.nil_append, List.cons.injEq, and_true] at h1; rw [h1]; exact ⟨_, h2⟩
    | cons c l' => simp at h1
  | y :: l, l', parent, e, a, hpath => by
    rw [List.cons_append, Path] at hpath
    obtain ⟨b, bs', h1, h2, h3⟩ := hpath
    cases l' with
    | nil =>
      simp only [List.nil_append, List.cons.injEq] at h1
      rw [← h1.2] at h3
      cases l <;> simp [Path] at h3
    | cons c l' =>
      simp only [List.cons_append, List.cons.injEq] at h1
      rw [← h1.2] at h3
      exact h3.last

theorem pick_first {α : Type} {x : α} {ks kids : List (Node α)} {anc : List α} {e : α} {p : List Nat}
    (hp : pick (.elem x ks) p = some (anc, .elem e kids)) : ∃ ys, anc ++ [e] = x :: ys := by
  cases p with
  | nil => rw [pick] at hp; cases hp; exact ⟨[], rfl⟩
  | cons i p =>
    rw [pick] at hp
    cases h1 : ks[i]? with
    | none => rw [h1] at hp; cases hp
    | some k =>
      rw [h1] at hp
      simp only at hp
      cases h2 : pick k p with
      | none => rw [h2] at hp; cases hp
      | some r =>
        rw [h2] at hp
        simp only [Option.map_some, Option.some.injEq, Prod.mk.injEq] at hp
        rw [← hp.1]
        exact ⟨_, rfl⟩

/-- The way to an element and the way to its conversion; only the first element is the body. -/
theorem doc_path {m : Media} {pr : Rat → List Char} {sh : Convert.Sheet} {doc : Node PLab} {out : Node Att} (hsame : Same m (fontId pr) sh doc out)
    {a0 : Att} {kids0 : List (Node Att)} (hforget : forget doc = .elem a0 kids0) (hk : a0.kind = .body)
    {p : List Nat} {anc : List PLab} {e : PLab} {kids : List (Node PLab)} (hp : pick doc p = some (anc, .elem e kids)) :
    ∃ anc' a kids', pick out p = some (anc', .elem a kids') ∧ Path m (fontId pr) sh none (anc ++ [e]) (anc' ++ [a]) ∧
      ∀ y ∈ anc ++ [e], y.att.kind = .body → y.att = a0 := by
  cases doc with
  | text s => cases hforget
  | br => cases hforget
  | elem x0 ks0 =>
    rw [forget] at hforget
    injection hforget with hx0 _
    have hfo : FontOk sh none x0 none := by simp [FontOk, hx0, hk]
    have hnone : addRef (fontId pr) none out = out := by cases out <;> rfl
    obtain ⟨anc', a, kids', e1, e2, _⟩ := pick_path (parent := none) (o := none) hsame hfo (by intro q hq; cases hq) hp
    rw [hnone] at e1
    refine ⟨anc', a, kids', e1, e2, ?_⟩
    intro y hy hyk
    obtain ⟨ys, hys⟩ := pick_first hp
    rw [hys] at hy e2
    rw [Path] at e2
    obtain ⟨b, bs', _, _, g3⟩ := e2
    rcases List.mem_cons.1 hy with he | he
    · rw [he, hx0]
    · exact absurd hyk (g3.notBody y he)

/-! ### C73 -/

/-- C73, partial: every element of a validated document is, in the converted document, at the same place an element of the same kind and
identifier, and its colour, direction, font family, style and weight, line padding, text alignment and decoration, wrapping, background
and bidi setting mean the same there, colours being written in numbers.

Missing, since it is false: attributes of styles that are referred to by styles (`C73_false_nested_styles`), multiRowAlign
(`C73_false_multi_row_align`), the padding of styles (`C73_false_padding`), the styles of body (`C73_false_body_style`); identifiers like those of generated styles
(`C75_false_clash`), and nested region attributes, see `C32_false_region`. -/
theorem C73_looks_alike_partial (m : Media) (pr : Rat → List Char) (hpr : Function.Injective pr) (hd : Head) (res : Rat × Rat)
    (place : Name → List Char × List Char) (a0 : Att) (kids0 : List (Node Att)) (hk : a0.kind = .body) (hst : a0.style = [])
    (hs : shaped (.elem a0 kids0) = true) (hu : unnested (.elem a0 kids0) = true) (hf : Flat hd) (hc : NoClash hd)
    (hn : (hd.regions.map (·.id)).Nodup) (infos : List RInfo) (doc : Node PLab) (hdoc : presentDoc hd (.elem a0 kids0) = .ok (infos, doc))
    (d : DDoc) (out : Node Att) (h : convertDoc m pr hd res place doc = .ok d) (hb : d.body = some out)
    (p : List Nat) (anc : List PLab) (e : PLab) (kids : List (Node PLab)) (hp : pick doc p = some (anc, .elem e kids)) :
    ∃ anc' a kids', pick out p = some (anc', .elem a kids') ∧ a.kind = e.att.kind ∧ (a.kind ≠ .body → a.id = e.att.id) ∧
      (∀ x, x ≠ .multiRowAlign → dValue d (anc' ++ [a]) x = (e.comp.inh x).1.map (recolor x)) ∧
      (dGives d (·.simple .backgroundColor) a.style).getD (rgba (initialSimple .backgroundColor)) = rgba (e.comp.simple .backgroundColor) ∧
      (dGives d (·.simple .unicodeBidi) a.style).getD (initialSimple .unicodeBidi) = e.comp.simple .unicodeBidi := by
  obtain ⟨ds, sh, hds, hreg, hsty, hkeyed, hsame, _⟩ := convertDoc_body h hb
  have hforget : forget doc = .elem a0 kids0 := by
    obtain ⟨_, c, hp'⟩ := presentDoc_ok hdoc
    exact present_forget hp'
  obtain ⟨anc', a, kids', e1, e2, hfirst⟩ := doc_path hsame hforget hk hp
  have hreach : Reach doc anc (.elem e kids) := pick_reach hp
  have hway : ∀ y ∈ anc ++ [e], ∃ anc1 ks1, Reach doc anc1 (.elem y ks1) := fun y hy => reach_around hreach hy
  have hall : ∀ y ∈ anc ++ [e], (y.att.kind = .body → y.att.style = []) ∧ ∀ n ∈ y.att.style, ∃ q ∈ hd.sheet, q.1 = n := by
    intro y hy
    obtain ⟨anc1, ks1, hry⟩ := hway y hy
    refine ⟨?_, refs_known (doc_refs hdoc hs hry).1⟩
    intro hyk
    rw [hfirst y hy hyk, hst]
  obtain ⟨par, hstep⟩ := e2.last
  have hfacts := hstep.facts
  refine ⟨anc', a, kids', e1, hfacts.1, fun hne => hfacts.2.2 (by rw [← hfacts.1]; exact hne), ?_, ?_, ?_⟩
  · intro x hx
    have hval := C30_document_one_region hd _ hu infos doc hdoc anc e kids hreach x
    rw [hval, dValue, List.map_reverse, path_gives hsty hc hpr (·.inh x) (fun _ => rfl) e2 hall]
    have hspec : ∀ y ∈ anc ++ [e], firstOf (y.att.style.map (fun n => (convSpec (hd.own n)).inh x)) = (y.spec.inh x).map (recolor x) := by
      intro y hy
      obtain ⟨anc1, ks1, hry⟩ := hway y hy
      obtain ⟨h1, h2⟩ := doc_refs hdoc hs hry
      rw [h2, (resolve_flat hf h1).1 x, ← firstOf_map, List.map_map]
      congr 1
      apply List.map_congr_left
      intro n _
      exact convSpec_inh _ hx
    have hregion : (dRegion d (anc' ++ [a])).bind (fun r => dGives d (·.inh x) r.refs) =
        (e.region.bind (fun i => i.spec.inh x)).map (recolor x) := by
      have hnear := ((C32_computed_style_ignores_siblings_partial hd _ hs hu infos doc hdoc).2 anc e kids hreach).1
      rw [dRegion, e2.nearest, ← hnear]
      cases hre : e.region with
      | none => rfl
      | some i =>
        obtain ⟨r, hr1, hr2⟩ := doc_region hdoc hreach hre
        obtain ⟨g1, g2, g3⟩ := presentRegion_ok hr2
        obtain ⟨q, k1, k2⟩ := convRegions_find (convRegions_forall hds) hn r hr1 (n := i.id) g1.symm
        simp only [Option.map_some, Option.bind_some]
        rw [hreg, k2]
        obtain ⟨_, _, _, _, hq⟩ := convRegion_ok k1
        simp only [Option.bind_some]
        have hqr : q.refs = r.refs := by rw [hq]
        rw [hqr, dGives_source hsty _ (refs_known g2), g3 x, (resolve_flat hf g2).1 x, ← firstOf_map, List.map_map]
        congr 1
        apply List.map_congr_left
        intro n _
        exact convSpec_inh _ hx
    rw [hregion]
    have hmap : (List.map (fun y : PLab => firstOf (y.att.style.map (fun n => (convSpec (hd.own n)).inh x))) (anc ++ [e])) =
        ((anc ++ [e]).map (fun y => y.spec.inh x)).map (Option.map (recolor x)) := by
      rw [List.map_map]
      apply List.map_congr_left
      intro y hy
      exact hspec y hy
    rw [hmap, ← List.map_reverse (f := Option.map (recolor x)), ← List.map_reverse]
    have : [((e.region.bind (fun i => i.spec.inh x)).map (recolor x))] = [e.region.bind (fun i => i.spec.inh x)].map (Option.map (recolor x)) := rfl
    rw [this, ← List.map_append, firstOf_map]
    cases firstOf (List.map (fun y => y.spec.inh x) (anc ++ [e]).reverse ++ [e.region.bind fun i => i.spec.inh x]) with
    | some v => rfl
    | none => cases x <;> rfl
  · have hval := (C30_document_value hd _ infos doc hdoc anc e kids hreach).2 .backgroundColor
    obtain ⟨h1, h2⟩ := doc_refs hdoc hs hreach
    rw [step_gives hstep hsty hc hpr (hall e (by simp)).1 (hall e (by simp)).2 (·.simple .backgroundColor) (fun _ => rfl), hval, h2,
      (resolve_flat hf h1).2 .backgroundColor]
    have : (e.att.style.map (fun n => (convSpec (hd.own n)).simple .backgroundColor)) =
        (e.att.style.map (fun n => (hd.own n).simple .backgroundColor)).map (Option.map rgba) := by
      rw [List.map_map]; rfl
    rw [this, firstOf_map]
    cases firstOf (e.att.style.map (fun n => (hd.own n).simple .backgroundColor)) <;> rfl
  · have hval := (C30_document_value hd _ infos doc hdoc anc e kids hreach).2 .unicodeBidi
    obtain ⟨h1, h2⟩ := doc_refs hdoc hs hreach
    rw [step_gives hstep hsty hc hpr (hall e (by simp)).1 (hall e (by simp)).2 (·.simple .unicodeBidi) (fun _ => rfl), hval, h2,
      (resolve_flat hf h1).2 .unicodeBidi]
    rfl

/-! ### C74 -/

/-- What a step refers to of generated styles. -/
theorem step_fs {m : Media} {pr : Rat → List Char} {sh : Convert.Sheet} {parent : Option PLab} {y : PLab} {b : Att} {hd : Head} {d : DDoc}
    (h : Step m (fontId pr) sh parent y b) (hs : d.styles = convStyles hd ++ sh.map (autoDStyle (fontId pr))) (hc : NoClash hd)
    (hpr : Function.Injective pr) (hr : ∀ n ∈ y.att.style, ∃ p ∈ hd.sheet, p.1 = n) :
    ∃ o, FontOk sh parent y o ∧ dGives d (·.fs) b.style = o.bind (fun k => (sh.get k).map (fun a => FS.pct ⟨none, a.size⟩)) := by
  obtain ⟨a, o, h1, h2, h3, _⟩ := h
  refine ⟨o, h3, ?_⟩
  have hst : ∀ n ∈ a.style, ∃ p ∈ hd.sheet, p.1 = n := by
    obtain ⟨_, _, g3, g4⟩ := convAtt_kind h1
    by_cases hk : y.att.kind = .body
    · rw [g4 hk]; intro n hn; cases hn
    · rw [(g3 hk).2]; exact hr
  rw [h2]
  show dGives d (·.fs) ((o.map (fontId pr)).toList ++ a.style) = _
  rw [dGives_append, dGives_source hs (·.fs) hst, firstOf_eq_none (a.style.map _) (by
    intro o ho
    obtain ⟨n, _, hn⟩ := List.mem_map.1 ho
    rw [← hn]; rfl), Option.or_none]
  cases o with
  | none => rfl
  | some k =>
    simp only [Option.map_some, Option.toList_some, dGives, List.map_cons, List.map_nil, dFind_auto hs hc hpr k, Option.bind_some]
    cases sh.get k with
    | none => rfl
    | some a => simp [autoDStyle, firstOf]

/-- The font size of an element of a given kind. -/
def AroundK (q : PLab) (r : Rat) : Kind → Prop
  | .body => r = 1
  | .div => r = 1
  | .p => ∃ f, felOf q = some f ∧ r = f.fs.v
  | .span => ∃ f, felOf q = some f ∧ r = f.fs.v

/-- The font size around an element of which `parent` is the parent. -/
def Around : Option PLab → Rat → Prop
  | none, r => r = 1
  | some q, r => AroundK q r q.att.kind

theorem sized_apply {sh : Convert.Sheet} (hg : Keyed sh) {v : Rat} {o : Option Rat} {z : Rat × Rat} (hz : Sized sh z.2 v o) :
    (applySize ⟨0, 0⟩ z (o.bind (fun k => (sh.get k).map (fun a => FS.pct ⟨none, a.size⟩)))).2 = v := by
  cases o with
  | none => exact hz.symm
  | some k =>
    obtain ⟨h0, hk, hsome⟩ := hz
    simp only [Option.bind_some]
    cases ha : sh.get k with
    | none => rw [ha] at hsome; cases hsome
    | some a =>
      simp only [Option.map_some, applySize]
      rw [hg k a ha, hk]
      grind

theorem path_size {m : Media} {pr : Rat → List Char} {sh : Convert.Sheet} {hd : Head} {d : DDoc}
    (hs : d.styles = convStyles hd ++ sh.map (autoDStyle (fontId pr))) (hc : NoClash hd) (hpr : Function.Injective pr) (hg : Keyed sh) :
    ∀ {ys : List PLab} {bs : List Att} {parent : Option PLab} {z : Rat × Rat}, Path m (fontId pr) sh parent ys bs →
    (∀ y ∈ ys, ∀ n ∈ y.att.style, ∃ p ∈ hd.sheet, p.1 = n) → Around parent z.2 →
    ∀ l e, ys = l ++ [e] → e.att.kind = .p ∨ e.att.kind = .span →
    ∃ f, felOf e = some f ∧ ((bs.map (fun b => dGives d (·.fs) b.style)).foldl (applySize ⟨0, 0⟩) z).2 = f.fs.v
  | [], bs, parent, z, h, _, _, l, e, hl, _ => by cases l <;> cases hl
  | y :: ys, bs, parent, z, h, hr, ha, l, e, hl, hk => by
    rw [Path] at h
    obtain ⟨b, bs', h1, h2, h3⟩ := h
    subst h1
    obtain ⟨o, hfo, hgv⟩ := step_fs h2 hs hc hpr (hr y (by simp))
    have hkind := h2.facts.1
    have hfit : ∀ q, parent = some q → fitsD q.att.kind (.elem b []) = true := by
      obtain ⟨_, _, _, _, _, h⟩ := h2
      exact h
    rw [List.map_cons, List.foldl_cons, hgv]
    have hnext : Around (some y) (applySize ⟨0, 0⟩ z (o.bind (fun k => (sh.get k).map (fun a => FS.pct ⟨none, a.size⟩)))).2 := by
      have hone : (y.att.kind ≠ .span) → z.2 = 1 := by
        intro hy
        cases parent with
        | none => exact ha
        | some q =>
          have hq := hfit q rfl
          simp only [fitsD, hkind] at hq
          rw [Around] at ha
          cases hqk : q.att.kind <;> rw [hqk] at hq ha <;> simp only [AroundK] at hq ha
          · exact ha
          · exact ha
          · simp only [decide_eq_true_eq] at hq; exact absurd hq hy
          · cases hq
      rw [Around]
      cases hyk : y.att.kind with
      | body =>
        simp only [FontOk, hyk] at hfo
        subst hfo
        exact hone (by rw [hyk]; decide)
      | div =>
        simp only [FontOk, hyk] at hfo
        subst hfo
        exact hone (by rw [hyk]; decide)
      | p =>
        simp only [FontOk, hyk] at hfo
        obtain ⟨f, g1, g2⟩ := hfo
        exact ⟨f, g1, sized_apply hg (by rw [hone (by rw [hyk]; decide)]; exact g2)⟩
      | span =>
        simp only [FontOk, hyk] at hfo
        obtain ⟨q, f, p, g0, g1, g2, g3⟩ := hfo
        refine ⟨f, g1, sized_apply hg ?_⟩
        have hq := hfit q g0
        simp only [fitsD, hkind, hyk] at hq
        rw [g0] at ha
        rw [Around] at ha
        cases hqk : q.att.kind <;> rw [hqk] at hq ha <;> simp only [AroundK] at hq ha
        · exact absurd hq (by decide)
        · exact absurd hq (by decide)
        · obtain ⟨f', k1, k2⟩ := ha
          rw [g2] at k1
          cases k1
          rw [k2]; exact g3
        · cases hq
    cases l with
    | nil =>
      simp only [List.nil_append, List.cons.injEq] at hl
      obtain ⟨e1, e2⟩ := hl
      subst e1 e2
      rw [Path] at h3
      subst h3
      rw [Around] at hnext
      rcases hk with hk | hk <;> (rw [hk] at hnext; obtain ⟨f, k1, k2⟩ := hnext; exact ⟨f, k1, k2⟩)
    | cons w l =>
      simp only [List.cons_append, List.cons.injEq] at hl
      exact path_size hs hc hpr hg h3 (fun y hy => hr y (List.mem_cons_of_mem _ hy)) hnext l e hl.2 hk

theorem regions_mem {res : Rat × Rat} {place : Name → List Char × List Char} {rs : List RegionDef} {ds : List DRegion}
    (h : convRegions res place rs = .ok ds) {q : DRegion} (hq : q ∈ withDefaultRegion ds) :
    q = ⟨"region.default".toList, [], none, (.pct, 0, 0), (.pct, 100, 100)⟩ ∧ rs = [] ∨ ∃ r ∈ rs, convRegion res place r = .ok q := by
  have hf := convRegions_forall h
  cases hf with
  | nil => left; exact ⟨by simpa [withDefaultRegion] using hq, rfl⟩
  | cons h1 h2 =>
    right
    have hw : ∀ (rs : List RegionDef) (ds : List DRegion), List.Forall₂ (fun r q => convRegion res place r = .ok q) rs ds → q ∈ ds →
        ∃ r ∈ rs, convRegion res place r = .ok q := by
      intro rs ds hf
      induction hf with
      | nil => intro h; cases h
      | cons h1 _ ih =>
        intro h
        rcases List.mem_cons.1 h with e | e
        · exact ⟨_, List.mem_cons_self, by rw [e]; exact h1⟩
        · obtain ⟨r, k1, k2⟩ := ih e
          exact ⟨r, List.mem_cons_of_mem _ k1, k2⟩
    exact hw _ _ (.cons h1 h2) hq

/-- C74, partial: the height of the font of every p and span of the converted document, reckoned from the styles it finds there, is the one
computed in the validated document.  Missing: the width (`C74_false_width`), and documents with styles named like generated ones
(`C75_false_clash`). -/
theorem C74_font_sizes_partial (m : Media) (pr : Rat → List Char) (hpr : Function.Injective pr) (hd : Head) (res : Rat × Rat)
    (place : Name → List Char × List Char) (a0 : Att) (kids0 : List (Node Att)) (hk : a0.kind = .body)
    (hs : shaped (.elem a0 kids0) = true) (hc : NoClash hd)
    (infos : List RInfo) (doc : Node PLab) (hdoc : presentDoc hd (.elem a0 kids0) = .ok (infos, doc))
    (d : DDoc) (out : Node Att) (h : convertDoc m pr hd res place doc = .ok d) (hb : d.body = some out)
    (p : List Nat) (anc : List PLab) (e : PLab) (kids : List (Node PLab)) (hp : pick doc p = some (anc, .elem e kids))
    (hek : e.att.kind = .p ∨ e.att.kind = .span) :
    ∃ anc' a kids' z, pick out p = some (anc', .elem a kids') ∧ e.comp.fs = some (.cell z) ∧ (dSize d (anc' ++ [a])).2 = z.v := by
  obtain ⟨ds, sh, hds, hreg, hsty, hkeyed, hsame, _⟩ := convertDoc_body h hb
  obtain ⟨hri, c, hp'⟩ := presentDoc_ok hdoc
  have hforget : forget doc = .elem a0 kids0 := present_forget hp'
  obtain ⟨anc', a, kids', e1, e2, _⟩ := doc_path hsame hforget hk hp
  have hreach : Reach doc anc (.elem e kids) := pick_reach hp
  have hall : ∀ y ∈ anc ++ [e], ∀ n ∈ y.att.style, ∃ q ∈ hd.sheet, q.1 = n := by
    intro y hy
    obtain ⟨anc1, ks1, hry⟩ := reach_around hreach hy
    exact refs_known (doc_refs hdoc hs hry).1
  have hregion : (dRegion d (anc' ++ [a])).bind (fun r => dGives d (·.fs) r.refs) = none := by
    cases hr : dRegion d (anc' ++ [a]) with
    | none => rfl
    | some q =>
      rw [Option.bind_some]
      have hmem : q ∈ d.regions := by
        rw [dRegion] at hr
        cases hn : nearest (anc' ++ [a]) with
        | none => rw [hn] at hr; cases hr
        | some n => rw [hn, Option.bind_some] at hr; exact List.mem_of_find?_eq_some hr
      rw [hreg] at hmem
      have hrefs : ∀ n ∈ q.refs, ∃ q ∈ hd.sheet, q.1 = n := by
        rcases regions_mem hds hmem with ⟨hq, _⟩ | ⟨r, hr1, hr2⟩
        · rw [hq]; intro n hn; cases hn
        · obtain ⟨_, _, _, _, hq⟩ := convRegion_ok hr2
          obtain ⟨i, hi⟩ := presentRegions_all hri r hr1
          rw [hq]
          exact refs_known (presentRegion_ok hi).2.1
      rw [dGives_source hsty _ hrefs]
      apply firstOf_eq_none
      intro o ho
      obtain ⟨n, _, hn⟩ := List.mem_map.1 ho
      rw [← hn]; rfl
  obtain ⟨f, hf1, hf2⟩ := path_size hsty hc hpr hkeyed (z := (1, 1)) e2 hall rfl anc e rfl hek
  have hcell : e.comp.fs = some (.cell f.fs) := by
    rw [felOf] at hf1
    split at hf1
    · rename_i d' hd'
      cases hf1
      exact hd'
    · cases hf1
  refine ⟨anc', a, kids', f.fs, e1, hcell, ?_⟩
  rw [dSize, hregion, List.foldl_cons]
  exact hf2

/-! ### C75 -/

theorem pick_back {m : Media} {nm : Rat → Name} {sh : Convert.Sheet} : ∀ {p : List Nat} {n : Node PLab} {n0 : Node Att} {o : Option Rat}
    {anc' : List Att} {a : Att} {kids' : List (Node Att)}, Same m nm sh n n0 → pick (addRef nm o n0) p = some (anc', .elem a kids') →
    ∃ anc e kids, pick n p = some (anc, .elem e kids)
  | p, .text s, n0, o, anc', a, kids', hs, hp => by
    rw [Same] at hs
    subst hs
    cases p <;> simp [addRef, pick] at hp
  | p, .br, n0, o, anc', a, kids', hs, hp => by
    rw [Same] at hs
    subst hs
    cases p <;> simp [addRef, pick] at hp
  | [], .elem x ks, n0, o, anc', a, kids', hs, hp => ⟨[], x, ks, rfl⟩
  | i :: p, .elem x ks, n0, o, anc', a, kids', hs, hp => by
    rw [Same] at hs
    obtain ⟨b, ks', h1, h2, h3, h4⟩ := hs
    subst h1
    rw [addRef, pick] at hp
    cases hk : ks'[i]? with
    | none => rw [hk] at hp; cases hp
    | some k' =>
      rw [hk] at hp
      simp only at hp
      cases hq : pick k' p with
      | none => rw [hq] at hp; cases hp
      | some r =>
        obtain ⟨r1, r2⟩ := r
        rw [hq] at hp
        simp only [Option.map_some, Option.some.injEq, Prod.mk.injEq] at hp
        have hlen : ∀ (ks : List (Node PLab)) (ks' : List (Node Att)), SameL m nm sh x ks ks' → ks'.length = ks.length := by
          intro ks
          induction ks with
          | nil => intro ks' h; rw [SameL] at h; rw [h]; rfl
          | cons k ks ih =>
            intro ks' h
            rw [SameL] at h
            obtain ⟨k0, o, ks1, g1, _, _, g4⟩ := h
            rw [g1, List.length_cons, List.length_cons, ih ks1 g4]
        have hi : i < ks.length := by
          rw [← hlen ks ks' h4]
          exact (List.getElem?_eq_some_iff.1 hk).1
        obtain ⟨k, hkk⟩ : ∃ k, ks[i]? = some k := ⟨ks[i], List.getElem?_eq_getElem hi⟩
        obtain ⟨k0, o1, g1, g2, g3⟩ := sameL_get h4 hkk
        rw [hk] at g1
        cases g1
        rw [hp.2] at hq
        obtain ⟨anc, e, kids, hb⟩ := pick_back g2 hq
        refine ⟨x :: anc, e, kids, ?_⟩
        rw [pick, hkk]
        simp only
        rw [hb]
        rfl

/-- C75: in the converted document every reference leads somewhere: those of elements and regions to styles, the generated ones
included, and those of elements to regions. -/
theorem C75_references (m : Media) (pr : Rat → List Char) (hd : Head) (res : Rat × Rat)
    (place : Name → List Char × List Char) (a0 : Att) (kids0 : List (Node Att)) (hk : a0.kind = .body)
    (hs : shaped (.elem a0 kids0) = true) (hu : unnested (.elem a0 kids0) = true)
    (infos : List RInfo) (doc : Node PLab) (hdoc : presentDoc hd (.elem a0 kids0) = .ok (infos, doc))
    (d : DDoc) (h : convertDoc m pr hd res place doc = .ok d) :
    (∀ q ∈ d.regions, ∀ n ∈ q.refs, ∃ s ∈ d.styles, s.id = n) ∧
    ∀ out, d.body = some out → ∀ p anc' a kids', pick out p = some (anc', .elem a kids') →
      (∀ n ∈ a.style, ∃ s ∈ d.styles, s.id = n) ∧ ∀ r, a.region = some r → ∃ q ∈ d.regions, q.id = r := by
  obtain ⟨hri, c, hp'⟩ := presentDoc_ok hdoc
  have known : ∀ {more : List DStyle}, d.styles = convStyles hd ++ more → ∀ n, (∃ p ∈ hd.sheet, p.1 = n) → ∃ s ∈ d.styles, s.id = n := by
    intro more hm n hn
    refine ⟨⟨n, convSpec (hd.own n)⟩, ?_, rfl⟩
    rw [hm]
    exact List.mem_append_left _ (List.mem_of_find?_eq_some (convStyles_find hd n hn))
  constructor
  · obtain ⟨ds, h1, h2, h3⟩ := convertDoc_ok h
    obtain ⟨more, hmore⟩ : ∃ more, d.styles = convStyles hd ++ more := by
      rcases h3 with ⟨_, h4, _⟩ | ⟨_, _, sh, _, _, h4⟩
      · exact ⟨[], by rw [h4, List.append_nil]⟩
      · exact ⟨_, h4⟩
    intro q hq n hn
    rw [h2] at hq
    rcases regions_mem h1 hq with ⟨he, _⟩ | ⟨r, hr1, hr2⟩
    · rw [he] at hn; cases hn
    · obtain ⟨_, _, _, _, he⟩ := convRegion_ok hr2
      rw [he] at hn
      obtain ⟨i, hi⟩ := presentRegions_all hri r hr1
      exact known hmore n (refs_known (presentRegion_ok hi).2.1 n hn)
  · intro out hb p anc' a kids' hp
    obtain ⟨ds, sh, hds, hreg, hsty, hkeyed, hsame, _⟩ := convertDoc_body h hb
    have hforget : forget doc = .elem a0 kids0 := present_forget hp'
    have hnone : addRef (fontId pr) none out = out := by cases out <;> rfl
    obtain ⟨anc, e, kids, hpk⟩ := pick_back (o := none) hsame (by rw [hnone]; exact hp)
    obtain ⟨anc1, a1, kids1, e1, e2, _⟩ := doc_path hsame hforget hk hpk
    rw [hp] at e1
    simp only [Option.some.injEq, Prod.mk.injEq, Node.elem.injEq] at e1
    obtain ⟨e1a, e1b, _⟩ := e1
    subst e1a e1b
    have hreach : Reach doc anc (.elem e kids) := pick_reach hpk
    obtain ⟨par, hstep⟩ := e2.last
    have hrefs := refs_known (doc_refs hdoc hs hreach).1
    have hown := hstep.facts.2.1
    constructor
    · intro n hn
      obtain ⟨b, o, g1, g2, g3, _⟩ := hstep
      rw [g2] at hn
      rcases List.mem_append.1 hn with hn | hn
      · cases o with
        | none => cases hn
        | some k =>
          simp only [Option.map_some, Option.toList_some, List.mem_singleton] at hn
          have hsome : (sh.get k).isSome = true := by
            unfold FontOk at g3
            cases hek : e.att.kind <;> rw [hek] at g3
            · cases g3
            · cases g3
            · obtain ⟨_, _, k2⟩ := g3; exact k2.2.2
            · obtain ⟨_, _, _, _, _, _, k2⟩ := g3; exact k2.2.2
          cases hg : sh.get k with
          | none => rw [hg] at hsome; cases hsome
          | some au =>
            refine ⟨autoDStyle (fontId pr) au, ?_, ?_⟩
            · rw [hsty]
              exact List.mem_append_right _ (List.mem_map.2 ⟨au, List.mem_of_find?_eq_some hg, rfl⟩)
            · rw [hn, autoDStyle, get_id hg]
      · apply known hsty
        obtain ⟨_, _, k3, k4⟩ := convAtt_kind g1
        by_cases hbk : e.att.kind = .body
        · rw [k4 hbk] at hn; cases hn
        · rw [(k3 hbk).2] at hn; exact hrefs n hn
    · intro r hr
      have hkind := hstep.facts.1
      have hor : ownRegion e.att = some r := by
        rw [← hown, ownRegion]
        have hreg' : hasRegion a.kind = true := by
          obtain ⟨b, o, g1, g2, _⟩ := hstep
          rw [g2] at hr
          have hr' : b.region = some r := hr
          rw [hkind]
          cases hek : e.att.kind with
          | div => rfl
          | p => rfl
          | body =>
            unfold convAtt at g1
            rw [hek] at g1
            cases g1
            cases hr'
          | span =>
            unfold convAtt at g1
            rw [hek] at g1
            simp only [bind, Except.bind] at g1
            cases t1 : mapTime m e.att.beg with
            | error _ => rw [t1] at g1; cases g1
            | ok b1 =>
              rw [t1] at g1
              simp only at g1
              cases t2 : mapTime m e.att.fin with
              | error _ => rw [t2] at g1; cases g1
              | ok b2 => rw [t2] at g1; cases g1; cases hr'
        rw [if_pos hreg', hr]
      have hnear := ((C32_computed_style_ignores_siblings_partial hd _ hs hu infos doc hdoc).2 anc e kids hreach).1
      have hn : nearest ((anc ++ [e]).map (·.att)) = some r := by
        have gen : ∀ l : List PLab, nearest ((l ++ [e]).map (·.att)) = some r := by
          intro l
          induction l with
          | nil => simp [nearest, hor]
          | cons y l ih => rw [List.cons_append, List.map_cons, nearest, ih]; rfl
        exact gen anc
      rw [hn] at hnear
      cases hre : e.region with
      | none => rw [hre] at hnear; cases hnear
      | some i =>
        rw [hre] at hnear
        simp only [Option.map_some, Option.some.injEq] at hnear
        obtain ⟨r0, hr1, hr2⟩ := doc_region hdoc hreach hre
        have hall := convRegions_forall hds
        obtain ⟨q, hq1, hq2⟩ : ∃ q ∈ ds, convRegion res place r0 = .ok q := by
          have gen : ∀ (rs : List RegionDef) (ds : List DRegion), List.Forall₂ (fun r q => convRegion res place r = .ok q) rs ds → r0 ∈ rs →
              ∃ q ∈ ds, convRegion res place r0 = .ok q := by
            intro rs ds hf
            induction hf with
            | nil => intro h; cases h
            | cons h1 _ ih =>
              intro h
              rcases List.mem_cons.1 h with he | he
              · exact ⟨_, List.mem_cons_self, by rw [he]; exact h1⟩
              · obtain ⟨q, k1, k2⟩ := ih he
                exact ⟨q, List.mem_cons_of_mem _ k1, k2⟩
          exact gen _ _ hall hr1
        refine ⟨q, ?_, ?_⟩
        · rw [hreg]
          cases ds with
          | nil => cases hq1
          | cons _ _ => exact hq1
        · obtain ⟨_, _, _, _, he⟩ := convRegion_ok hq2
          rw [he, ← hnear]
          exact (presentRegion_ok hr2).1.symm

theorem fixFont_nodup {ref : Dim} {x : FEl} {sh sh' : Convert.Sheet} {o : Option Rat} (h : fixFont ref x sh = some (o, sh'))
    (hn : (sh.map (·.id)).Nodup) : (sh'.map (·.id)).Nodup := by
  have hset : ∀ (s : Convert.Sheet) (k l : Rat), (setLh s k l).map (·.id) = s.map (·.id) := by
    intro s k l
    rw [setLh, List.map_map]
    apply List.map_congr_left
    intro a _
    simp only [Function.comp_apply]
    split <;> rfl
  have hauto : ∀ k, ((autoStyle sh k).map (·.id)).Nodup := by
    intro k
    unfold autoStyle
    cases hg : sh.get k with
    | some a => exact hn
    | none =>
      rw [List.map_append, List.nodup_append]
      refine ⟨hn, by simp, ?_⟩
      intro a ha b hb
      simp only [List.map_cons, List.map_nil, List.mem_singleton] at hb
      obtain ⟨s, hs, he⟩ := List.mem_map.1 ha
      rw [Sheet.get, List.find?_eq_none] at hg
      have := hg s hs
      rw [hb, ← he]
      simpa using this
  unfold fixFont at h
  split at h
  · cases h; exact hn
  · cases hd : divDim x.fs ref with
    | none => rw [hd] at h; cases h
    | some k =>
      rw [hd] at h
      simp only at h
      split at h
      · split at h
        · cases h
        · cases h; rw [hset]; exact hauto k
      · cases h; exact hauto k

theorem fixNode_nodup {nm : Rat → Name} {parent : PLab} {k : Node PLab} {k0 : Node Att} {sh : Convert.Sheet} {r : Node Att × Convert.Sheet}
    (h : fixNode nm parent k k0 sh = .ok r) (hn : (sh.map (·.id)).Nodup) : (r.2.map (·.id)).Nodup := by
  cases k with
  | text s => cases h; exact hn
  | br => cases h; exact hn
  | elem x ks =>
    simp only [fixNode] at h
    cases hk : x.att.kind <;> rw [hk] at h <;> simp only at h
    · cases h; exact hn
    · cases h; exact hn
    · cases hf : felOf x with
      | none => rw [hf] at h; cases h
      | some f =>
        rw [hf] at h
        simp only at h
        cases hx : fixFont ⟨none, 1⟩ f sh with
        | none => rw [hx] at h; cases h
        | some q => rw [hx] at h; cases h; exact fixFont_nodup (o := q.1) hx hn
    · cases hf : felOf x with
      | none => rw [hf] at h; cases h
      | some f =>
        cases hp : felOf parent with
        | none => rw [hf, hp] at h; cases h
        | some p =>
          rw [hf, hp] at h
          simp only at h
          cases hx : fixFont p.fs f sh with
          | none => rw [hx] at h; cases h
          | some q => rw [hx] at h; cases h; exact fixFont_nodup (o := q.1) hx hn

mutual
theorem wconv_nodup {m : Media} {nm : Rat → Name} : ∀ {n : Node PLab} {sh : Convert.Sheet} {r : Node Att × Convert.Sheet},
    wconv m nm n sh = .ok r → (sh.map (·.id)).Nodup → (r.2.map (·.id)).Nodup
  | .text s, sh, r, h, hn => by rw [wconv] at h; cases h; exact hn
  | .br, sh, r, h, hn => by rw [wconv] at h; cases h; exact hn
  | .elem x kids, sh, r, h, hn => by
    obtain ⟨ks, a, h1, _⟩ := wconv_elem h
    exact wconvL_nodup h1 hn
theorem wconvL_nodup {m : Media} {nm : Rat → Name} {parent : PLab} : ∀ {ks : List (Node PLab)} {sh : Convert.Sheet}
    {r : List (Node Att) × Convert.Sheet}, wconvL m nm parent ks sh = .ok r → (sh.map (·.id)).Nodup → (r.2.map (·.id)).Nodup
  | [], sh, r, h, hn => by rw [wconvL] at h; cases h; exact hn
  | k :: ks, sh, r, h, hn => by
    obtain ⟨k0, sh1, k', sh2, ks', h1, h2, h3, h4⟩ := wconvL_cons h
    have h5 := fixNode_nodup h2 (wconv_nodup h1 hn)
    exact wconvL_nodup (r := (ks', r.2)) h3 h5
end

/-- C75, partial: identifiers of styles and regions stay unique.  Missing: styles named like generated ones (`C75_false_clash`). -/
theorem C75_unique_identifiers_partial (m : Media) (pr : Rat → List Char) (hpr : Function.Injective pr) (hd : Head) (res : Rat × Rat)
    (place : Name → List Char × List Char) (hc : NoClash hd) (hn : (hd.sheet.map (·.1)).Nodup) (hr : (hd.regions.map (·.id)).Nodup)
    (doc : Node PLab) (d : DDoc) (h : convertDoc m pr hd res place doc = .ok d) :
    (d.styles.map (·.id)).Nodup ∧ (d.regions.map (·.id)).Nodup := by
  obtain ⟨ds, h1, h2, h3⟩ := convertDoc_ok h
  have hcs : ((convStyles hd).map (·.id)).Nodup := by
    rw [convStyles]
    split
    · simp
    · rw [List.map_map]; exact hn
  constructor
  · rcases h3 with ⟨_, h4, _⟩ | ⟨_, _, sh, h5, _, h4⟩
    · rw [h4]; exact hcs
    · rw [h4, List.map_append, List.nodup_append]
      have hsh := wconv_nodup h5 (by simp)
      refine ⟨hcs, ?_, ?_⟩
      · rw [List.map_map]
        have : ((fun s : DStyle => s.id) ∘ autoDStyle (fontId pr)) = (fontId pr) ∘ (fun a : Auto => a.id) := rfl
        rw [this, ← List.map_map]
        exact List.Pairwise.map _ (fun a b hab he => hab (fontId_inj hpr he)) hsh
      · intro a ha b hb he
        obtain ⟨s, hs, hse⟩ := List.mem_map.1 ha
        obtain ⟨t, ht, hte⟩ := List.mem_map.1 hb
        obtain ⟨au, _, hau⟩ := List.mem_map.1 ht
        apply convStyles_ids (pr := pr) hc au.id s hs
        rw [hse, he, ← hte, ← hau]
        rfl
  · have hf := convRegions_forall h1
    have hids : ∀ (rs : List RegionDef) (ds : List DRegion), List.Forall₂ (fun r q => convRegion res place r = .ok q) rs ds → ds.map (·.id) = rs.map (·.id) := by
      intro rs ds hf
      induction hf with
      | nil => rfl
      | cons k1 _ ih =>
        obtain ⟨_, _, _, _, he⟩ := convRegion_ok k1
        rw [List.map_cons, List.map_cons, ih, he]
    rw [h2]
    cases ds with
    | nil => simp [withDefaultRegion]
    | cons q ds => show ((q :: ds).map (·.id)).Nodup; rw [hids _ _ hf]; exact hr

end Verif.Convert
