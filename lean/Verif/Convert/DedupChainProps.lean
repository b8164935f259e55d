import Verif.Convert.DedupChain

/-! C106: a deduplicator before the encoder does not change how the EBU-TT-D documents look. -/
namespace Verif.Convert

open Verif.Doc (Node Att Kind Reach shaped shapedL fits hasRegion)
open Verif.Style
open Verif.Dedup (DElem DUse Ref found look regionLook useLook keepFirst)

/-! ### Specification -/

/-- What is seen of a region of an EBU-TT-D document: padding, origin, extent, and what its styles give for an attribute. -/
def seenRegion {α : Type} (d : DDoc) (f : Specified → Option α) (o : Option DRegion) :
    Option (Option Val × (Size.Measure × Rat × Rat) × (Size.Measure × Rat × Rat) × Option α) :=
  o.map (fun q => (q.padding, q.origin, q.extent, dGives d f q.refs))

/-- The elements `path` of the document `d` and `path'` of `d'`, outermost first, look the same: what their styles give for any attribute, the
inherited values, the font size and the region they are shown in. -/
def SameLook (d d' : DDoc) (path path' : List Att) : Prop :=
  (∀ (α : Type) (f : Specified → Option α), path'.map (fun a => dGives d' f a.style) = path.map (fun a => dGives d f a.style)) ∧
  (∀ x, dValue d' path' x = dValue d path x) ∧ dSize d' path' = dSize d path ∧
  ∀ (α : Type) (f : Specified → Option α), seenRegion d' f (dRegion d' path') = seenRegion d f (dRegion d path)

/-! ### Lemmas -/

section
variable {w w' : Whole}

/-- References before and after that look the same. -/
def RefsTwin (w w' : Whole) (s t : List Name) : Prop :=
  Follows w s ∧ Follows w' t ∧ t.map (fun r => look w'.seen (refOf r)) = keepFirst (s.map (fun r => look w.seen (refOf r)))

/-- Regions before and after that look the same. -/
def RegionTwin (w w' : Whole) (r r' : Option Name) : Prop :=
  (r = none ∧ r' = none) ∨ ∃ x y e e', r = some x ∧ r' = some y ∧ found w.regions (refOf x) = some e ∧
    found w'.regions (refOf y) = some e' ∧ regionLook w.seen e = regionLook w'.seen e'

/-- Elements of the two EBU-TT-D documents: the same generated style comes first. -/
def AttTwin (nm : Rat → Name) (w w' : Whole) (a b : Att) : Prop :=
  noRefs a = noRefs b ∧ (∃ (g : List Rat) (s t : List Name), a.style = g.map nm ++ s ∧ b.style = g.map nm ++ t ∧ RefsTwin w w' s t) ∧
  RegionTwin w w' a.region b.region

mutual
def OutTwin (nm : Rat → Name) (w w' : Whole) : Node Att → Node Att → Prop
  | .text s, .text s' => s = s'
  | .br, .br => True
  | .elem a ks, .elem b ls => AttTwin nm w w' a b ∧ OutTwinL nm w w' ks ls
  | _, _ => False
def OutTwinL (nm : Rat → Name) (w w' : Whole) : List (Node Att) → List (Node Att) → Prop
  | [], [] => True
  | k :: ks, l :: ls => OutTwin nm w w' k l ∧ OutTwinL nm w w' ks ls
  | _, _ => False
end

theorem noRefs_fields {a b : Att} (h : noRefs a = noRefs b) : a.kind = b.kind ∧ a.id = b.id ∧ a.beg = b.beg ∧ a.fin = b.fin := by
  simp only [noRefs, Att.mk.injEq] at h
  exact ⟨h.1, h.2.1, h.2.2.1, h.2.2.2.1⟩

theorem convAtt_twin {nm : Rat → Name} {m : Media} {a b : Att} (h : noRefs a = noRefs b) (hs : RefsTwin w w' a.style b.style)
    (hr : RegionTwin w w' a.region b.region) :
    (∃ e, convAtt m a = .error e ∧ convAtt m b = .error e) ∨ ∃ a' b', convAtt m a = .ok a' ∧ convAtt m b = .ok b' ∧ AttTwin nm w w' a' b' := by
  obtain ⟨hk, hi, hb, hf⟩ := noRefs_fields h
  have hn : RefsTwin w w' [] [] := ⟨(by intro r hr; cases hr), (by intro r hr; cases hr), rfl⟩
  have hno : RegionTwin w w' none none := .inl ⟨rfl, rfl⟩
  unfold convAtt
  rw [← hk, ← hb, ← hf, ← hi]
  cases a.kind with
  | body => exact .inr ⟨_, _, rfl, rfl, rfl, ⟨[], [], [], rfl, rfl, hn⟩, hno⟩
  | div => exact .inr ⟨_, _, rfl, rfl, rfl, ⟨[], a.style, b.style, rfl, rfl, hs⟩, hr⟩
  | p =>
    simp only [bind, Except.bind]
    cases mapTime m a.beg with
    | error e => exact .inl ⟨e, rfl, rfl⟩
    | ok t =>
      cases mapTime m a.fin with
      | error e => exact .inl ⟨e, rfl, rfl⟩
      | ok u => exact .inr ⟨_, _, rfl, rfl, rfl, ⟨[], a.style, b.style, rfl, rfl, hs⟩, hr⟩
  | span =>
    simp only [bind, Except.bind]
    cases mapTime m a.beg with
    | error e => exact .inl ⟨e, rfl, rfl⟩
    | ok t =>
      cases mapTime m a.fin with
      | error e => exact .inl ⟨e, rfl, rfl⟩
      | ok u => exact .inr ⟨_, _, rfl, rfl, rfl, ⟨[], a.style, b.style, rfl, rfl, hs⟩, hno⟩

theorem addRef_twin {nm : Rat → Name} (o : Option Rat) : ∀ {k l : Node Att}, OutTwin nm w w' k l → OutTwin nm w w' (addRef nm o k) (addRef nm o l)
  | .text _, .text _, h => h
  | .br, .br, h => h
  | .text _, .br, h => by simp [OutTwin] at h
  | .text _, .elem _ _, h => by simp [OutTwin] at h
  | .br, .text _, h => by simp [OutTwin] at h
  | .br, .elem _ _, h => by simp [OutTwin] at h
  | .elem _ _, .text _, h => by simp [OutTwin] at h
  | .elem _ _, .br, h => by simp [OutTwin] at h
  | .elem a ks, .elem b ls, h => by
    rw [OutTwin] at h
    obtain ⟨⟨h1, ⟨g, s, t, e1, e2, h2⟩, h3⟩, h4⟩ := h
    rw [addRef, addRef, OutTwin]
    refine ⟨⟨h1, ⟨o.toList ++ g, s, t, ?_, ?_, h2⟩, h3⟩, h4⟩
    · rw [e1]; cases o <;> rfl
    · rw [e2]; cases o <;> rfl

theorem fixNode_twin {nm : Rat → Name} {parent parent' : PLab} {k l : Node PLab} {k' l' : Node Att} (sh : Convert.Sheet)
    (hp : parent.comp = parent'.comp) (hkl : LookAlike w w' k l) (h : OutTwin nm w w' k' l') :
    (∃ e, fixNode nm parent k k' sh = .error e ∧ fixNode nm parent' l l' sh = .error e) ∨
    ∃ o o' sh1, fixNode nm parent k k' sh = .ok (o, sh1) ∧ fixNode nm parent' l l' sh = .ok (o', sh1) ∧ OutTwin nm w w' o o' := by
  have hsame : ∀ (f : FEl) (r : Dim), 
      (∃ e, (match fixFont r f sh with | none => Except.error WErr.zero | some (o, sh) => .ok (addRef nm o k', sh)) = .error e ∧
        (match fixFont r f sh with | none => Except.error WErr.zero | some (o, sh) => .ok (addRef nm o l', sh)) = .error e) ∨
      ∃ o o' sh1, (match fixFont r f sh with | none => Except.error WErr.zero | some (o, sh) => .ok (addRef nm o k', sh)) = .ok (o, sh1) ∧
        (match fixFont r f sh with | none => Except.error WErr.zero | some (o, sh) => .ok (addRef nm o l', sh)) = .ok (o', sh1) ∧
        OutTwin nm w w' o o' := by
    intro f r
    cases fixFont r f sh with
    | none => exact .inl ⟨_, rfl, rfl⟩
    | some q => exact .inr ⟨_, _, _, rfl, rfl, addRef_twin q.1 h⟩
  cases k with
  | text s => cases l <;> first | exact .inr ⟨_, _, _, rfl, rfl, h⟩ | (simp [LookAlike] at hkl)
  | br => cases l <;> first | exact .inr ⟨_, _, _, rfl, rfl, h⟩ | (simp [LookAlike] at hkl)
  | elem x ks =>
    cases l with
    | text s => simp [LookAlike] at hkl
    | br => simp [LookAlike] at hkl
    | elem y ls =>
      rw [LookAlike] at hkl
      obtain ⟨⟨hk, _⟩, _, hc, _⟩ := hkl
      have hfx : felOf y = felOf x := by simp only [felOf, hc]
      have hfp : felOf parent' = felOf parent := by simp only [felOf, hp]
      simp only [fixNode, ← hk, hfx, hfp]
      cases x.att.kind with
      | body => exact .inr ⟨_, _, _, rfl, rfl, h⟩
      | div => exact .inr ⟨_, _, _, rfl, rfl, h⟩
      | p =>
        cases felOf x with
        | none => exact .inl ⟨_, rfl, rfl⟩
        | some f => exact hsame f _
      | span =>
        cases felOf x with
        | none => exact .inl ⟨_, rfl, rfl⟩
        | some f =>
          cases felOf parent with
          | none => exact .inl ⟨_, rfl, rfl⟩
          | some q => exact hsame f _

theorem fits_twin {nm : Rat → Name} (kd : Kind) : ∀ {ks ls : List (Node Att)}, OutTwinL nm w w' ks ls → ks.all (fitsD kd) = ls.all (fitsD kd)
  | [], [], _ => rfl
  | [], _ :: _, h => by simp [OutTwinL] at h
  | _ :: _, [], h => by simp [OutTwinL] at h
  | k :: ks, l :: ls, h => by
    rw [OutTwinL] at h
    rw [List.all_cons, List.all_cons, fits_twin kd h.2]
    congr 1
    have h := h.1
    cases k <;> cases l <;> simp [OutTwin] at h
    · rfl
    · rfl
    · simp only [fitsD, (noRefs_fields h.1.1).1]

mutual
/-- The content of both documents is converted alike, and the same styles are generated. -/
theorem wconv_twin {nm : Rat → Name} {m : Media} : ∀ (n n' : Node PLab) (sh : Convert.Sheet), LookAlike w w' n n' → Twin w w' (forget n) (forget n') →
    (∃ e, wconv m nm n sh = .error e ∧ wconv m nm n' sh = .error e) ∨
    ∃ o o' sh1, wconv m nm n sh = .ok (o, sh1) ∧ wconv m nm n' sh = .ok (o', sh1) ∧ OutTwin nm w w' o o'
  | .text s, .text s', sh, h, _ => .inr ⟨_, _, _, rfl, rfl, h⟩
  | .br, .br, sh, _, _ => .inr ⟨_, _, _, rfl, rfl, trivial⟩
  | .text _, .br, _, ht, _ => by simp [LookAlike] at ht
  | .text _, .elem _ _, _, ht, _ => by simp [LookAlike] at ht
  | .br, .text _, _, ht, _ => by simp [LookAlike] at ht
  | .br, .elem _ _, _, ht, _ => by simp [LookAlike] at ht
  | .elem _ _, .text _, _, ht, _ => by simp [LookAlike] at ht
  | .elem _ _, .br, _, ht, _ => by simp [LookAlike] at ht
  | .elem x ks, .elem y ls, sh, h, ht => by
    rw [LookAlike] at h
    rw [forget, forget, Twin] at ht
    obtain ⟨hsame, _, hc, _, hkids⟩ := h
    obtain ⟨_, hst, hrg, htk⟩ := ht
    have hno : noRefs x.att = noRefs y.att := by
      obtain ⟨h1, h2, h3, h4, h5⟩ := hsame
      simp only [noRefs, h1, h2, h3, h4, h5]
    rw [wconv, wconv]
    rcases wconvL_twin (nm := nm) (m := m) x y ks ls sh hc hkids htk with ⟨e, e1, e2⟩ | ⟨o, o', sh1, e1, e2, e3⟩
    · rw [e1, e2]; exact .inl ⟨e, rfl, rfl⟩
    · rw [e1, e2]
      simp only
      rcases convAtt_twin (nm := nm) (m := m) hno hst hrg with ⟨e, c1, c2⟩ | ⟨a', b', c1, c2, c3⟩
      · rw [c1, c2]; exact .inl ⟨_, rfl, rfl⟩
      · rw [c1, c2]
        simp only [← hsame.1, ← fits_twin x.att.kind e3]
        split
        · exact .inr ⟨_, _, _, rfl, rfl, c3, e3⟩
        · exact .inl ⟨_, rfl, rfl⟩
theorem wconvL_twin {nm : Rat → Name} {m : Media} (x y : PLab) : ∀ (ks ls : List (Node PLab)) (sh : Convert.Sheet), x.comp = y.comp →
    LookAlikeL w w' ks ls → TwinL w w' (forgetL ks) (forgetL ls) →
    (∃ e, wconvL m nm x ks sh = .error e ∧ wconvL m nm y ls sh = .error e) ∨
    ∃ o o' sh1, wconvL m nm x ks sh = .ok (o, sh1) ∧ wconvL m nm y ls sh = .ok (o', sh1) ∧ OutTwinL nm w w' o o'
  | [], [], sh, _, _, _ => .inr ⟨_, _, _, rfl, rfl, trivial⟩
  | [], _ :: _, _, _, h, _ => by simp [LookAlikeL] at h
  | _ :: _, [], _, _, h, _ => by simp [LookAlikeL] at h
  | k :: ks, l :: ls, sh, hc, h, ht => by
    rw [LookAlikeL] at h
    rw [forgetL, forgetL, TwinL] at ht
    rw [wconvL, wconvL]
    rcases wconv_twin (nm := nm) (m := m) k l sh h.1 ht.1 with ⟨e, e1, e2⟩ | ⟨o, o', sh1, e1, e2, e3⟩
    · rw [e1, e2]; exact .inl ⟨e, rfl, rfl⟩
    · rw [e1, e2]
      simp only
      rcases fixNode_twin sh1 hc h.1 e3 with ⟨e, f1, f2⟩ | ⟨q, q', sh2, f1, f2, f3⟩
      · rw [f1, f2]; exact .inl ⟨e, rfl, rfl⟩
      · rw [f1, f2]
        simp only
        rcases wconvL_twin (nm := nm) (m := m) x y ks ls sh2 hc h.2 ht.2 with ⟨e, g1, g2⟩ | ⟨r, r', sh3, g1, g2, g3⟩
        · rw [g1, g2]; exact .inl ⟨e, rfl, rfl⟩
        · rw [g1, g2]; exact .inr ⟨_, _, _, rfl, rfl, f3, g3⟩
end

mutual
theorem plain_twin {nm : Rat → Name} : ∀ {n n' : Node Att}, OutTwin nm w w' n n' → plain n' = plain n
  | .text _, .text _, h => by rw [OutTwin] at h; rw [h]
  | .br, .br, h => rfl
  | .text _, .br, h => by simp [OutTwin] at h
  | .text _, .elem _ _, h => by simp [OutTwin] at h
  | .br, .text _, h => by simp [OutTwin] at h
  | .br, .elem _ _, h => by simp [OutTwin] at h
  | .elem _ _, .text _, h => by simp [OutTwin] at h
  | .elem _ _, .br, h => by simp [OutTwin] at h
  | .elem a ks, .elem b ls, h => by
    rw [OutTwin] at h
    rw [plain, plain, plainL_twin h.2]
    have := h.1.1
    simp only [noRefs] at this
    rw [this]
theorem plainL_twin {nm : Rat → Name} : ∀ {ks ls : List (Node Att)}, OutTwinL nm w w' ks ls → plainL ls = plainL ks
  | [], [], _ => rfl
  | [], _ :: _, h => by simp [OutTwinL] at h
  | _ :: _, [], h => by simp [OutTwinL] at h
  | k :: ks, l :: ls, h => by
    rw [OutTwinL] at h
    rw [plainL, plainL, plain_twin h.1, plainL_twin h.2]
end

theorem outTwinL_get {nm : Rat → Name} : ∀ {ks ls : List (Node Att)} (i : Nat), OutTwinL nm w w' ks ls →
    (ks[i]? = none ∧ ls[i]? = none) ∨ ∃ k l, ks[i]? = some k ∧ ls[i]? = some l ∧ OutTwin nm w w' k l
  | [], [], i, _ => .inl ⟨rfl, rfl⟩
  | [], _ :: _, _, h => by simp [OutTwinL] at h
  | _ :: _, [], _, h => by simp [OutTwinL] at h
  | k :: ks, l :: ls, 0, h => by
    rw [OutTwinL] at h
    exact .inr ⟨k, l, rfl, rfl, h.1⟩
  | k :: ks, l :: ls, i + 1, h => by
    rw [OutTwinL] at h
    simpa using outTwinL_get i h.2

theorem pick_twin {nm : Rat → Name} : ∀ (p : List Nat) {n n' : Node Att}, OutTwin nm w w' n n' → ∀ {anc anc' : List Att} {k k' : Node Att},
    pick n p = some (anc, k) → pick n' p = some (anc', k') → List.Forall₂ (AttTwin nm w w') anc anc' ∧ OutTwin nm w w' k k'
  | [], n, n', h, anc, anc', k, k', h1, h2 => by
    rw [pick] at h1 h2
    cases h1; cases h2
    exact ⟨.nil, h⟩
  | i :: p, .elem a ks, .elem b ls, h, anc, anc', k, k', h1, h2 => by
    rw [pick] at h1 h2
    rw [OutTwin] at h
    rcases outTwinL_get i h.2 with ⟨g1, g2⟩ | ⟨q, r, g1, g2, g3⟩
    · rw [g1] at h1; cases h1
    · rw [g1] at h1
      rw [g2] at h2
      simp only [Option.map_eq_some_iff] at h1 h2
      obtain ⟨⟨b1, b2⟩, h1, e1⟩ := h1
      obtain ⟨⟨c1, c2⟩, h2, e2⟩ := h2
      cases e1; cases e2
      obtain ⟨f1, f2⟩ := pick_twin p g3 h1 h2
      exact ⟨.cons h.1 f1, f2⟩
  | _ :: _, .text _, _, _, _, _, _, _, h1, _ => by simp [pick] at h1
  | _ :: _, .br, _, _, _, _, _, _, h1, _ => by simp [pick] at h1
  | _ :: _, .elem _ _, .text _, _, _, _, _, _, _, h2 => by simp [pick] at h2
  | _ :: _, .elem _ _, .br, _, _, _, _, _, _, h2 => by simp [pick] at h2

/-! #### What references give -/

theorem firstOf_eq {α : Type} : ∀ l : List (Option α), firstOf l = l.findSome? id
  | [] => rfl
  | some v :: l => rfl
  | none :: l => by rw [firstOf, firstOf_eq l]; rfl

variable {mean : List (Option Val) → Specified} {pad : List (Option Val) → Option Val} {g : Geometry}

/-- What the style that looks like `o` gives in a converted document. -/
def given {α : Type} (mean : List (Option Val) → Specified) (f : Specified → Option α) (o : Option (List (Option (List Char)))) : Option α :=
  f (convSpec ((o.map mean).getD {}))

theorem gives_follows {α : Type} {v : Whole} {d : DDoc} {more : List DStyle} (hs : d.styles = convStyles (v.head mean pad g) ++ more)
    (f : Specified → Option α) {s : List Name} (h : Follows v s) :
    s.map (fun n => (dFind d n).bind f) = (s.map (fun r => look v.seen (refOf r))).map (given mean f) := by
  rw [List.map_map]
  apply List.map_congr_left
  intro n hn
  have hfound := h n hn
  rw [look_found, ← find_sheet (mean := mean) (pad := pad) (g := g)] at hfound
  have hex : ∃ p ∈ (v.head mean pad g).sheet, p.1 = n := by
    rw [find, Option.isSome_map] at hfound
    obtain ⟨q, hq⟩ := Option.isSome_iff_exists.1 hfound
    exact ⟨q, List.mem_of_find?_eq_some hq, by simpa using List.find?_some hq⟩
  rw [dFind_source hs hex, Option.bind_some, own_look]
  rfl

theorem firstOf_append {α : Type} (l m : List (Option α)) : firstOf (l ++ m) = (firstOf l).or (firstOf m) := by
  rw [firstOf_eq, firstOf_eq, firstOf_eq, List.findSome?_append]

theorem firstOf_keepFirst {α β : Type} [DecidableEq α] (f : α → Option β) (l : List α) : firstOf ((keepFirst l).map f) = firstOf (l.map f) := by
  rw [firstOf_eq, firstOf_eq, List.findSome?_map, List.findSome?_map]
  exact findSome_keepFirst _ l

theorem gives_att {α : Type} {d d' : DDoc} {pr : Rat → List Char} {sh : Convert.Sheet} (hpr : Function.Injective pr)
    (hs : d.styles = convStyles (w.head mean pad g) ++ sh.map (autoDStyle (fontId pr))) (hc : NoClash (w.head mean pad g))
    (hs' : d'.styles = convStyles (w'.head mean pad g) ++ sh.map (autoDStyle (fontId pr))) (hc' : NoClash (w'.head mean pad g))
    (f : Specified → Option α) {a b : Att} (h : AttTwin (fontId pr) w w' a b) : dGives d' f b.style = dGives d f a.style := by
  obtain ⟨_, ⟨gs, s, t, e1, e2, h1, h2, h3⟩, _⟩ := h
  have hg : (gs.map (fontId pr)).map (fun n => (dFind d' n).bind f) = (gs.map (fontId pr)).map (fun n => (dFind d n).bind f) := by
    apply List.map_congr_left
    intro n hn
    obtain ⟨k, _, rfl⟩ := List.mem_map.1 hn
    rw [dFind_auto hs hc hpr, dFind_auto hs' hc' hpr]
  rw [dGives, dGives, e1, e2, List.map_append, List.map_append, firstOf_append, firstOf_append, hg, gives_follows hs f h1,
    gives_follows hs' f h2, h3, firstOf_keepFirst]

/-! #### Regions -/

/-- The region of the document of which a region definition is made. -/
def defOf (pad : List (Option Val) → Option Val) (r : DElem) : RegionDef := { id := r.id.toList, refs := r.refs.map nameOf, padding := pad r.vals }

theorem convRegions_elem {res : Rat × Rat} {place : Name → List Char × List Char} {x : Name} : ∀ {rs : List DElem} {ds : List DRegion} {e : DElem},
    convRegions res place (rs.map (defOf pad)) = .ok ds → rs.find? (fun r => decide (r.id.toList = x)) = some e →
    ∃ q, ds.find? (fun q => decide (q.id = x)) = some q ∧ convRegion res place (defOf pad e) = .ok q
  | [], ds, e, _, h2 => by cases h2
  | r :: rs, ds, e, h1, h2 => by
    rw [List.map_cons, convRegions] at h1
    cases hr : convRegion res place (defOf pad r) with
    | error er => rw [hr] at h1; cases h1
    | ok q =>
      rw [hr] at h1
      simp only at h1
      cases hrs : convRegions res place (rs.map (defOf pad)) with
      | error er => rw [hrs] at h1; cases h1
      | ok qs =>
        rw [hrs] at h1
        cases h1
        have hid : q.id = r.id.toList := by
          unfold convRegion at hr
          split at hr
          · cases hr; rfl
          · cases hr
        by_cases hx : r.id.toList = x
        · rw [List.find?_cons_of_pos (by simpa using hx)] at h2
          cases h2
          exact ⟨q, List.find?_cons_of_pos (by simpa [hid] using hx), hr⟩
        · rw [List.find?_cons_of_neg (by simpa using hx)] at h2
          obtain ⟨q', g1, g2⟩ := convRegions_elem hrs h2
          exact ⟨q', by rw [List.find?_cons_of_neg (by simpa [hid] using hx)]; exact g1, g2⟩

/-- A region as converted. -/
theorem region_conv {res : Rat × Rat} {spot : List (Option Val) → List Char × List Char} {v : Whole} {ds : List DRegion} {x : Name} {e : DElem}
    (h : convRegions res (v.place spot) (v.regions.map (defOf pad)) = .ok ds) (hf : found v.regions (refOf x) = some e) :
    ∃ q o t, (withDefaultRegion ds).find? (fun q => decide (q.id = x)) = some q ∧ Size.readOrigin (spot e.vals).1 = some o ∧
      Size.readExtent (spot e.vals).2 = some t ∧ q.refs = e.refs.map nameOf ∧ q.padding = pad e.vals ∧ q.origin = convPlace res o ∧
      q.extent = convPlace res t := by
  rw [← found_region] at hf
  obtain ⟨q, h1, h2⟩ := convRegions_elem h hf
  have hw : withDefaultRegion ds = ds := by
    cases ds with
    | nil => cases h1
    | cons _ _ => rfl
  have hx : e.id.toList = x := by simpa using List.find?_some hf
  have hp : v.place spot (defOf pad e).id = spot e.vals := by
    show v.place spot e.id.toList = _
    rw [hx, Whole.place, hf]
    rfl
  unfold convRegion at h2
  rw [hp] at h2
  split at h2
  · rename_i o t ho ht
    cases h2
    exact ⟨_, o, t, by rw [hw]; exact h1, ho, ht, rfl, rfl, rfl, rfl⟩
  · cases h2

/-- Whether the sizes of a region can be read. -/
def readable (s : List Char × List Char) : Bool := (Size.readOrigin s.1).isSome && (Size.readExtent s.2).isSome

theorem convRegions_cases (res : Rat × Rat) (place : Name → List Char × List Char) : ∀ rs : List RegionDef,
    (∀ r ∈ rs, readable (place r.id) = true) ∧ (∃ ds, convRegions res place rs = .ok ds) ∨
    (∃ r ∈ rs, readable (place r.id) = false) ∧ convRegions res place rs = .error .badSize
  | [] => .inl ⟨(by intro r hr; cases hr), [], rfl⟩
  | r :: rs => by
    rw [convRegions]
    cases hr : readable (place r.id) with
    | false =>
      refine .inr ⟨⟨r, List.mem_cons_self, hr⟩, ?_⟩
      have : convRegion res place r = .error .badSize := by
        unfold convRegion
        unfold readable at hr
        cases h1 : Size.readOrigin (place r.id).1 with
        | none => rfl
        | some o =>
          cases h2 : Size.readExtent (place r.id).2 with
          | none => rfl
          | some t => rw [h1, h2] at hr; cases hr
      rw [this]
    | true =>
      have : ∃ q, convRegion res place r = .ok q := by
        unfold readable at hr
        rw [Bool.and_eq_true, Option.isSome_iff_exists, Option.isSome_iff_exists] at hr
        obtain ⟨⟨o, h1⟩, ⟨t, h2⟩⟩ := hr
        unfold convRegion
        rw [h1, h2]
        exact ⟨_, rfl⟩
      obtain ⟨q, hq⟩ := this
      rw [hq]
      simp only
      rcases convRegions_cases res place rs with ⟨h1, ds, h2⟩ | ⟨⟨z, h1, h3⟩, h2⟩
      · rw [h2]
        refine .inl ⟨?_, _, rfl⟩
        intro z hz
        rcases List.mem_cons.1 hz with rfl | hz
        · exact hr
        · exact h1 z hz
      · rw [h2]
        exact .inr ⟨⟨z, List.mem_cons_of_mem _ h1, h3⟩, rfl⟩

theorem place_vals {spot : List (Option Val) → List Char × List Char} {v : Whole} {e : DElem}
    (hn : ∀ e ∈ v.regions, ∀ e' ∈ v.regions, e.id = e'.id → e = e') (he : e ∈ v.regions) : v.place spot e.id.toList = spot e.vals := by
  have hs : (v.regions.find? (fun r => decide (r.id.toList = e.id.toList))).isSome = true := by
    rw [List.find?_isSome]
    exact ⟨e, he, by simp⟩
  obtain ⟨e', h1⟩ := Option.isSome_iff_exists.1 hs
  have hid : e'.id.toList = e.id.toList := by simpa using List.find?_some h1
  rw [Whole.place, h1, hn e' (List.mem_of_find?_eq_some h1) e he (String.toList_inj.1 hid)]
  rfl

theorem nearest_twin {nm : Rat → Name} : ∀ {l l' : List Att}, List.Forall₂ (AttTwin nm w w') l l' → RegionTwin w w' (nearest l) (nearest l')
  | [], [], .nil => .inl ⟨rfl, rfl⟩
  | a :: l, b :: l', .cons h1 h2 => by
    rw [nearest, nearest]
    rcases nearest_twin h2 with ⟨e1, e2⟩ | ⟨x, y, e, e', e1, e2, h⟩
    · rw [e1, e2, Option.none_or, Option.none_or, ownRegion, ownRegion, ← (noRefs_fields h1.1).1]
      split
      · exact h1.2.2
      · exact .inl ⟨rfl, rfl⟩
    · rw [e1, e2]
      exact .inr ⟨x, y, e, e', rfl, rfl, h⟩

theorem sameLook_twin {pr : Rat → List Char} (hpr : Function.Injective pr) {sh : Convert.Sheet} {body body' : Option (Node Att)}
    {res : Rat × Rat} {spot : List (Option Val) → List Char × List Char} {ds ds' : List DRegion}
    (hr : ∀ e ∈ w.regions, ∀ r ∈ e.refs, (look w.seen r).isSome = true) (hr' : ∀ e ∈ w'.regions, ∀ r ∈ e.refs, (look w'.seen r).isSome = true)
    (hn : NoClash (w.head mean pad g)) (hn' : NoClash (w'.head mean pad g))
    (c1 : convRegions res (w.place spot) (w.regions.map (defOf pad)) = .ok ds)
    (c2 : convRegions res (w'.place spot) (w'.regions.map (defOf pad)) = .ok ds') {l l' : List Att}
    (hl : List.Forall₂ (AttTwin (fontId pr) w w') l l') :
    SameLook ⟨convStyles (w.head mean pad g) ++ sh.map (autoDStyle (fontId pr)), withDefaultRegion ds, body⟩
      ⟨convStyles (w'.head mean pad g) ++ sh.map (autoDStyle (fontId pr)), withDefaultRegion ds', body'⟩ l l' := by
  generalize hd : (⟨convStyles (w.head mean pad g) ++ sh.map (autoDStyle (fontId pr)), withDefaultRegion ds, body⟩ : DDoc) = d
  generalize hd' : (⟨convStyles (w'.head mean pad g) ++ sh.map (autoDStyle (fontId pr)), withDefaultRegion ds', body'⟩ : DDoc) = d'
  have hs : d.styles = convStyles (w.head mean pad g) ++ sh.map (autoDStyle (fontId pr)) := by rw [← hd]
  have hs' : d'.styles = convStyles (w'.head mean pad g) ++ sh.map (autoDStyle (fontId pr)) := by rw [← hd']
  have hg : d.regions = withDefaultRegion ds := by rw [← hd]
  have hg' : d'.regions = withDefaultRegion ds' := by rw [← hd']
  have hmap : ∀ (α : Type) (f : Specified → Option α), l'.map (fun a => dGives d' f a.style) = l.map (fun a => dGives d f a.style) := by
    intro α f
    clear c1 c2
    induction hl with
    | nil => rfl
    | cons h1 _ ih => rw [List.map_cons, List.map_cons, ih, gives_att hpr hs hn hs' hn' f h1]
  have hreg : ∀ (α : Type) (f : Specified → Option α), seenRegion d' f (dRegion d' l') = seenRegion d f (dRegion d l) := by
    intro α f
    rcases nearest_twin hl with ⟨e1, e2⟩ | ⟨x, y, e, e', e1, e2, f1, f2, hlk⟩
    · rw [dRegion, dRegion, e1, e2]
      rfl
    · obtain ⟨q, o, t, g1, g2, g3, g4, g5, g6, g7⟩ := region_conv c1 f1
      obtain ⟨q', o', t', g1', g2', g3', g4', g5', g6', g7'⟩ := region_conv c2 f2
      have hv : e.vals = e'.vals := congrArg Prod.fst hlk
      have hl : e.refs.map (look w.seen) = e'.refs.map (look w'.seen) := congrArg Prod.snd hlk
      rw [← hv] at g2' g3' g5'
      rw [g2] at g2'
      rw [g3] at g3'
      cases g2'
      cases g3'
      rw [dRegion, dRegion, e1, e2, Option.bind_some, Option.bind_some, hg, hg', g1, g1']
      have fo : ∀ {v : Whole} {e : DElem}, e ∈ v.regions → (∀ e ∈ v.regions, ∀ r ∈ e.refs, (look v.seen r).isSome = true) →
          Follows v (e.refs.map nameOf) := by
        intro v e he h r hre
        obtain ⟨r0, h0, rfl⟩ := List.mem_map.1 hre
        cases r0 with
        | none => exact absurd (h e he none h0) (by simp [look, found])
        | some x => rw [refOf_nameOf]; exact h e he _ h0
      have m1 : e ∈ w.regions := by rw [← found_region] at f1; exact List.mem_of_find?_eq_some f1
      have m2 : e' ∈ w'.regions := by rw [← found_region] at f2; exact List.mem_of_find?_eq_some f2
      have hge : dGives d' f q'.refs = dGives d f q.refs := by
        rw [g4, g4', dGives, dGives, gives_follows hs f (fo m1 hr), gives_follows hs' f (fo m2 hr'), map_refOf_nameOf (hr e m1),
          map_refOf_nameOf (hr' e' m2), hl]
      show some (q'.padding, q'.origin, q'.extent, dGives d' f q'.refs) = some (q.padding, q.origin, q.extent, dGives d f q.refs)
      rw [hge, g5, g5', g6, g6', g7, g7']
  refine ⟨hmap, ?_, ?_, hreg⟩
  · intro x
    have h1 := hreg _ (·.inh x)
    have h2 : (dRegion d' l').bind (fun r => dGives d' (·.inh x) r.refs) = (dRegion d l).bind (fun r => dGives d (·.inh x) r.refs) := by
      have := congrArg (fun o => Option.bind o (fun q => q.2.2.2)) h1
      simpa [seenRegion, Option.bind_map, Function.comp_def] using this
    rw [dValue, dValue, h2, List.map_reverse, List.map_reverse, hmap]
  · have h1 := hreg _ (·.fs)
    have h2 : (dRegion d' l').bind (fun r => dGives d' (·.fs) r.refs) = (dRegion d l).bind (fun r => dGives d (·.fs) r.refs) := by
      have := congrArg (fun o => Option.bind o (fun q => q.2.2.2)) h1
      simpa [seenRegion, Option.bind_map, Function.comp_def] using this
    rw [dSize, dSize, h2, hmap]

theorem hasDiv_twin : ∀ {n n' : Node Att}, Twin w w' n n' → hasDiv n = hasDiv n'
  | .text _, .text _, h => rfl
  | .br, .br, h => rfl
  | .text _, .br, h => rfl
  | .text _, .elem _ _, h => by simp [Twin] at h
  | .br, .text _, h => rfl
  | .br, .elem _ _, h => by simp [Twin] at h
  | .elem _ _, .text _, h => by simp [Twin] at h
  | .elem _ _, .br, h => by simp [Twin] at h
  | .elem a ks, .elem b ls, h => by
    rw [Twin] at h
    have : ∀ {ks ls : List (Node Att)}, TwinL w w' ks ls → (Node.elem a ks |> hasDiv) = hasDiv (.elem b ls) := by
      intro ks
      induction ks with
      | nil => intro ls h; cases ls with
        | nil => rfl
        | cons _ _ => simp [TwinL] at h
      | cons k ks ih =>
        intro ls h
        cases ls with
        | nil => simp [TwinL] at h
        | cons l ls =>
          rw [TwinL] at h
          have := ih h.2
          simp only [hasDiv] at this
          simp only [hasDiv, List.any_cons, this]
          congr 1
          have h := h.1
          cases k <;> cases l <;> simp [Twin] at h
          · rfl
          · rfl
          · simp only [h.1.1]
    exact this h.2.2.2

end

/-! ### C106 -/

/-- **C106, partial.**  Whatever attribute values mean, wherever origins and extents are among them and in whatever order Python's dictionaries
give their entries: a valid document for which `Clean` holds and of which no style is named like a generated one is encoded behind a
deduplicator exactly if it is without one; and then the two EBU-TT-D documents have the same elements, identifiers, times and text, and every
element looks the same in both.  Missing: documents that are not `Clean`, see C42 and C105. -/
theorem C106_encoded_alike_partial (h : List Char → Int) (order : List (Int × DElem) → List (Int × DElem)) (ho : ∀ l, (order l).Perm l)
    (w : Whole) (hc : Dedup.Clean h w.seen) (mean : List (Option Val) → Specified) (pad : List (Option Val) → Option Val) (g : Geometry)
    (m : Media) (pr : Rat → List Char) (hpr : Function.Injective pr) (res : Rat × Rat) (spot : List (Option Val) → List Char × List Char)
    (hn : NoClash (w.head mean pad g)) :
    ∃ w' infos doc infos' doc', dedupWhole h order w = some w' ∧ w.validated mean pad g = .ok (infos, doc) ∧
      w'.validated mean pad g = .ok (infos', doc') ∧
      ((∃ e, w.encoded m pr res spot mean pad g doc = .error e ∧ w'.encoded m pr res spot mean pad g doc' = .error e) ∨
       ∃ d d', w.encoded m pr res spot mean pad g doc = .ok d ∧ w'.encoded m pr res spot mean pad g doc' = .ok d' ∧
        d'.body.map plain = d.body.map plain ∧
        ∀ out out', d.body = some out → d'.body = some out' → ∀ p anc a kids anc' a' kids', pick out p = some (anc, .elem a kids) →
          pick out' p = some (anc', .elem a' kids') → SameLook d d' (anc ++ [a]) (anc' ++ [a'])) := by
  obtain ⟨w', hw, s1, hr, hr', htw, rg1, rg2, rg3⟩ := dedup_twin h order ho w hc
  obtain ⟨infos, doc, infos', doc', v1, v2, hla⟩ := validated_twin (mean := mean) (pad := pad) (g := g) hc.flat (fun s hs => hc.flat s (s1 s hs)) hr hr' htw
  refine ⟨w', infos, doc, infos', doc', hw, v1, v2, ?_⟩
  have hfd : forget doc = w.body := by obtain ⟨_, c, hp⟩ := presentDoc_ok v1; exact present_forget hp
  have hfd' : forget doc' = w'.body := by obtain ⟨_, c, hp⟩ := presentDoc_ok v2; exact present_forget hp
  have hn' : NoClash (w'.head mean pad g) := by
    intro p hp
    obtain ⟨s, hs, rfl⟩ := List.mem_map.1 hp
    exact hn (s.id.toList, s.refs.map nameOf) (List.mem_map.2 ⟨s, s1 s hs, rfl⟩)
  -- regions are readable in both or in neither
  have hread : (∃ ds ds', convRegions res (w.place spot) (w.regions.map (defOf pad)) = .ok ds ∧
        convRegions res (w'.place spot) (w'.regions.map (defOf pad)) = .ok ds') ∨
      (convRegions res (w.place spot) (w.regions.map (defOf pad)) = .error .badSize ∧
        convRegions res (w'.place spot) (w'.regions.map (defOf pad)) = .error .badSize) := by
    have pl := fun e => place_vals (spot := spot) (e := e) (nodup_id (clean_regions hc))
    have pl' := fun e => place_vals (spot := spot) (e := e) rg3
    rcases convRegions_cases res (w.place spot) (w.regions.map (defOf pad)) with ⟨a1, ds, a2⟩ | ⟨⟨r, a1, a3⟩, a2⟩
    · rcases convRegions_cases res (w'.place spot) (w'.regions.map (defOf pad)) with ⟨_, ds', b2⟩ | ⟨⟨r, b1, b3⟩, b2⟩
      · exact .inl ⟨ds, ds', a2, b2⟩
      · obtain ⟨e', he', rfl⟩ := List.mem_map.1 b1
        obtain ⟨e, k3, k4⟩ := rg2 e' he'
        have b3 : readable (w'.place spot e'.id.toList) = false := b3
        have this : readable (w.place spot e.id.toList) = true := a1 (defOf pad e) (List.mem_map_of_mem k3)
        rw [pl e k3, ← k4, ← pl' e' he', b3] at this
        cases this
    · rcases convRegions_cases res (w'.place spot) (w'.regions.map (defOf pad)) with ⟨b1, ds', b2⟩ | ⟨_, b2⟩
      · obtain ⟨e, he, rfl⟩ := List.mem_map.1 a1
        obtain ⟨e', k1, k2⟩ := rg1 e he
        have a3 : readable (w.place spot e.id.toList) = false := a3
        have this : readable (w'.place spot e'.id.toList) = true := b1 (defOf pad e') (List.mem_map_of_mem k1)
        rw [pl' e' k1, k2, ← pl e he, a3] at this
        cases this
      · exact .inr ⟨a2, b2⟩
  unfold Whole.encoded convertDoc
  rw [show (w.head mean pad g).regions = w.regions.map (defOf pad) from rfl, show (w'.head mean pad g).regions = w'.regions.map (defOf pad) from rfl]
  rcases hread with ⟨ds, ds', c1, c2⟩ | ⟨c1, c2⟩
  swap
  · rw [c1, c2]
    exact .inl ⟨_, rfl, rfl⟩
  rw [c1, c2, hfd, hfd', ← hasDiv_twin htw]
  simp only
  split
  swap
  · refine .inr ⟨_, _, rfl, rfl, rfl, ?_⟩
    intro out _ h1
    cases h1
  rcases wconv_twin (nm := fontId pr) (m := m) doc doc' [] hla (by rw [hfd, hfd']; exact htw) with ⟨e, k1, k2⟩ | ⟨out, out', sh, k1, k2, hot⟩
  · rw [k1, k2]
    exact .inl ⟨_, rfl, rfl⟩
  rw [k1, k2]
  refine .inr ⟨_, _, rfl, rfl, congrArg some (plain_twin hot), ?_⟩
  intro o o' h1 h2 p anc a kids anc' a' kids' p1 p2
  cases h1
  cases h2
  obtain ⟨ha, hk⟩ := pick_twin p hot p1 p2
  rw [OutTwin] at hk
  exact sameLook_twin hpr hr hr' hn hn' c1 c2 (List.rel_append ha (.cons hk.1 .nil))

/-- Media times are not converted. -/
def exUntimed : Media := { base := .media, zero := 0, rd := Time.exactReader }

/-- The origin of a region is its first value. -/
def exSpot (l : List (Option Val)) : List Char × List Char := (((l[0]?).join).getD [], "80% 20%".toList)

theorem exWhole_noClash : NoClash (exWhole.head exMean (fun _ => none) ⟨10, 20⟩) := by
  intro p hp; revert p; decide +kernel

example (pr : Rat → List Char) (hpr : Function.Injective pr) :
    ∃ w' infos doc infos' doc', dedupWhole Dedup.code id exWhole = some w' ∧ exWhole.validated exMean (fun _ => none) ⟨10, 20⟩ = .ok (infos, doc) ∧
      w'.validated exMean (fun _ => none) ⟨10, 20⟩ = .ok (infos', doc') ∧
      ((∃ e, exWhole.encoded exUntimed pr (40, 20) exSpot exMean (fun _ => none) ⟨10, 20⟩ doc = .error e ∧
          w'.encoded exUntimed pr (40, 20) exSpot exMean (fun _ => none) ⟨10, 20⟩ doc' = .error e) ∨
       ∃ d d', exWhole.encoded exUntimed pr (40, 20) exSpot exMean (fun _ => none) ⟨10, 20⟩ doc = .ok d ∧
        w'.encoded exUntimed pr (40, 20) exSpot exMean (fun _ => none) ⟨10, 20⟩ doc' = .ok d' ∧ d'.body.map plain = d.body.map plain ∧
        ∀ out out', d.body = some out → d'.body = some out' → ∀ p anc a kids anc' a' kids', pick out p = some (anc, .elem a kids) →
          pick out' p = some (anc', .elem a' kids') → SameLook d d' (anc ++ [a]) (anc' ++ [a'])) :=
  C106_encoded_alike_partial Dedup.code id (fun l => List.Perm.refl l) exWhole exWhole_clean _ _ _ _ pr hpr _ _ exWhole_noClash

/-- References, colour and origin of the region of every element of the EBU-TT-D document. -/
def exEncoded (w : Whole) : Option (List (Option (List Name × Option Val × Option (Size.Measure × Rat × Rat)))) :=
  (w.validated exMean (fun _ => none) ⟨10, 20⟩).toOption.bind (fun r =>
    (w.encoded exUntimed exPr (40, 20) exSpot exMean (fun _ => none) ⟨10, 20⟩ r.2).toOption.map (fun d =>
      [[], [0], [0, 0], [0, 1]].map (fun p => (d.body.bind (fun out => pick out p)).bind (fun q => match q.2 with
        | .elem a _ => some (a.style, dValue d (q.1 ++ [a]) .color, (dRegion d (q.1 ++ [a])).map (·.origin))
        | _ => none))))

set_option synthInstance.maxSize 1000 in
/-- What it comes to: other references, the same colours and origins. -/
example : exEncoded exWhole = some [some ([], none, none),
      some (["s1".toList, "s2".toList], some "#ff0000ff".toList, some (.pct, 10, 20)),
      some (["s2".toList, "s3".toList], some "#ff0000ff".toList, some (.pct, 10, 20)),
      some (["s1".toList, "s2".toList, "s3".toList], some "#ff0000ff".toList, some (.pct, 10, 20))] := by decide +kernel

set_option synthInstance.maxSize 1000 in
example : (dedupWhole Dedup.code id exWhole).bind exEncoded = some [some ([], none, none),
      some (["s3".toList, "s2".toList], some "#ff0000ff".toList, some (.pct, 10, 20)),
      some (["s2".toList, "s3".toList], some "#ff0000ff".toList, some (.pct, 10, 20)),
      some (["s3".toList, "s2".toList], some "#ff0000ff".toList, some (.pct, 10, 20))] := by decide +kernel

end Verif.Convert
