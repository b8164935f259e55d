import Verif.Style.DedupLemmas
import Mathlib.Data.List.Forall2

/-! C105: deduplication does not change how anything looks. -/
namespace Verif.Style

open Verif.Doc (Node Att Kind Reach)
open Verif.Dedup (DElem DUse DDoc Ref found look regionLook useLook keepFirst)

/-! ### Specification -/

/-- What is seen of the region of an element: the specified and the computed style of the region, and the values of its attributes (where it
is, how large it is and so on). -/
def regionSeen (w : Whole) (o : Option RInfo) : Option (Specified × Computed × Option (List (Option Val))) :=
  o.map (fun i => (i.spec, i.comp, (w.regions.find? (fun r => decide (r.id.toList = i.id))).map DElem.vals))

mutual
/-- Two validated documents look the same: the same structure, text, line breaks, identifiers and times; and every element has the same
specified style, the same computed style, and a region that looks the same or none in both. -/
def LookAlike (w w' : Whole) : Node PLab → Node PLab → Prop
  | .text s, .text s' => s = s'
  | .br, .br => True
  | .elem x ks, .elem y ls =>
    (x.att.kind = y.att.kind ∧ x.att.id = y.att.id ∧ x.att.beg = y.att.beg ∧ x.att.fin = y.att.fin ∧ x.att.dur = y.att.dur) ∧
    x.spec = y.spec ∧ x.comp = y.comp ∧ regionSeen w x.region = regionSeen w' y.region ∧ LookAlikeL w w' ks ls
  | _, _ => False
def LookAlikeL (w w' : Whole) : List (Node PLab) → List (Node PLab) → Prop
  | [], [] => True
  | k :: ks, l :: ls => LookAlike w w' k l ∧ LookAlikeL w w' ks ls
  | _, _ => False
end

/-! ### Lemmas -/

/-- The references of a style, region or element can be followed. -/
def Follows (w : Whole) (refs : List Name) : Prop := ∀ r ∈ refs, (look w.seen (refOf r)).isSome = true

theorem look_found (w : Whole) (r : Ref) : (look w.seen r).isSome = (found w.styles r).isSome := by
  show ((found w.styles r).map DElem.vals).isSome = _
  simp

theorem follows_ok {mean : List (Option Val) → Specified} {pad : List (Option Val) → Option Val} {g : Geometry} {w : Whole}
    (hf : ∀ s ∈ w.styles, s.refs = []) {refs : List Name} (h : Follows w refs) :
    refStyles (w.head mean pad g) refs = .ok (addNew [] refs) := by
  apply flat_refStyles
  · intro s hs
    obtain ⟨e, he, rfl⟩ := List.mem_map.1 hs
    simp [hf e he]
  · intro r hr
    rw [find_sheet, ← look_found]
    exact h r hr

/-- The region `e` after validation. -/
def infoOf (mean : List (Option Val) → Specified) (pad : List (Option Val) → Option Val) (g : Geometry) (w : Whole) (e : DElem) : RInfo :=
  let l := addNew [] (e.refs.map nameOf)
  let spec := add (add {} { simple := fun x => match x with | .padding => pad e.vals | _ => none }) (resolve (w.head mean pad g).own l)
  { id := e.id.toList, styles := l, spec := spec, comp := regionStyle g spec }

theorem regions_ok (mean : List (Option Val) → Specified) (pad : List (Option Val) → Option Val) (g : Geometry) {w : Whole}
    (hf : ∀ s ∈ w.styles, s.refs = []) (hr : ∀ e ∈ w.regions, Follows w (e.refs.map nameOf)) :
    presentRegions (w.head mean pad g) (w.head mean pad g).regions = .ok (w.regions.map (infoOf mean pad g w)) := by
  show presentRegions (w.head mean pad g) (w.regions.map _) = _
  generalize w.regions = rs at hr
  induction rs with
  | nil => rfl
  | cons e rs ih =>
    rw [List.map_cons, presentRegions]
    have h1 : presentRegion (w.head mean pad g) { id := e.id.toList, refs := e.refs.map nameOf, padding := pad e.vals } =
        .ok (infoOf mean pad g w e) := by
      unfold presentRegion
      simp only
      rw [follows_ok hf (hr e List.mem_cons_self)]
      rfl
    rw [h1, ih (fun x hx => hr x (List.mem_cons_of_mem _ hx))]
    rfl

theorem find_info {mean : List (Option Val) → Specified} {pad : List (Option Val) → Option Val} {g : Geometry} (w : Whole) (x : Name) :
    (w.regions.map (infoOf mean pad g w)).find? (fun i => decide (i.id = x)) = (found w.regions (refOf x)).map (infoOf mean pad g w) := by
  show _ = (w.regions.find? (fun e => decide (e.id = String.ofList x))).map _
  rw [List.find?_map]
  congr 2
  funext e
  have : (e.id.toList = x) ↔ e.id = String.ofList x := by
    rw [← toList_inj, String.toList_ofList]
  simp [infoOf, this]

theorem resolve_names {mean : List (Option Val) → Specified} {pad : List (Option Val) → Option Val} {g : Geometry} {w w' : Whole}
    {refs refs' : List Name}
    (h : refs'.map (fun r => look w'.seen (refOf r)) = keepFirst (refs.map (fun r => look w.seen (refOf r))) ∨
      refs'.map (fun r => look w'.seen (refOf r)) = refs.map (fun r => look w.seen (refOf r))) :
    resolve (w'.head mean pad g).own (addNew [] refs') = resolve (w.head mean pad g).own (addNew [] refs) :=
  resolve_same (fun o => (o.map mean).getD {}) (fun r => look w.seen (refOf r)) (fun r => look w'.seen (refOf r))
    (fun r _ => own_look w r) (fun r _ => own_look w' r) h

theorem map_refOf_nameOf {w : Whole} : ∀ {refs : List Ref}, (∀ r ∈ refs, (look w.seen r).isSome = true) →
    (refs.map nameOf).map (fun r => look w.seen (refOf r)) = refs.map (look w.seen) := by
  intro refs h
  rw [List.map_map]
  apply List.map_congr_left
  intro r hr
  cases r with
  | none => have := h none hr; simp [look, found] at this
  | some x => simp only [Function.comp, refOf_nameOf]

/-- Regions that look the same do so after validation. -/
theorem info_same {mean : List (Option Val) → Specified} {pad : List (Option Val) → Option Val} {g : Geometry} {w w' : Whole} {e e' : DElem}
    (h : regionLook w.seen e = regionLook w'.seen e') (hr : ∀ r ∈ e.refs, (look w.seen r).isSome = true)
    (hr' : ∀ r ∈ e'.refs, (look w'.seen r).isSome = true) :
    (infoOf mean pad g w e).spec = (infoOf mean pad g w' e').spec ∧ (infoOf mean pad g w e).comp = (infoOf mean pad g w' e').comp := by
  have hv : e.vals = e'.vals := congrArg Prod.fst h
  have hl : e.refs.map (look w.seen) = e'.refs.map (look w'.seen) := congrArg Prod.snd h
  have hs : (infoOf mean pad g w e).spec = (infoOf mean pad g w' e').spec := by
    simp only [infoOf]
    rw [hv, resolve_names (w := w) (w' := w') (refs := e.refs.map nameOf) (refs' := e'.refs.map nameOf)
      (.inr (by rw [map_refOf_nameOf hr', map_refOf_nameOf hr, hl]))]
  refine ⟨hs, ?_⟩
  show regionStyle g (infoOf mean pad g w e).spec = regionStyle g (infoOf mean pad g w' e').spec
  rw [hs]

mutual
/-- The two contents differ in references only, and these look the same. -/
def Twin (w w' : Whole) : Node Att → Node Att → Prop
  | .text s, .text s' => s = s'
  | .br, .br => True
  | .elem a ks, .elem b ls =>
    (a.kind = b.kind ∧ a.id = b.id ∧ a.beg = b.beg ∧ a.fin = b.fin ∧ a.dur = b.dur) ∧
    (Follows w a.style ∧ Follows w' b.style ∧
      b.style.map (fun r => look w'.seen (refOf r)) = keepFirst (a.style.map (fun r => look w.seen (refOf r)))) ∧
    ((a.region = none ∧ b.region = none) ∨ ∃ x y e e', a.region = some x ∧ b.region = some y ∧ found w.regions (refOf x) = some e ∧
      found w'.regions (refOf y) = some e' ∧ regionLook w.seen e = regionLook w'.seen e') ∧
    TwinL w w' ks ls
  | _, _ => False
def TwinL (w w' : Whole) : List (Node Att) → List (Node Att) → Prop
  | [], [] => True
  | k :: ks, l :: ls => Twin w w' k l ∧ TwinL w w' ks ls
  | _, _ => False
end

section
variable {mean : List (Option Val) → Specified} {pad : List (Option Val) → Option Val} {g : Geometry} {w w' : Whole}

theorem found_id {els : List DElem} {x : Name} {e : DElem} (h : found els (refOf x) = some e) : e.id.toList = x ∧ e ∈ els := by
  have h : els.find? (fun e => decide (e.id = String.ofList x)) = some e := h
  have := List.find?_some h
  exact ⟨by simp at this; rw [this, String.toList_ofList], List.mem_of_find?_eq_some h⟩

theorem found_region (els : List DElem) (x : Name) : els.find? (fun s => decide (s.id.toList = x)) = found els (refOf x) := by
  show _ = els.find? (fun e => decide (e.id = String.ofList x))
  congr 1
  funext e
  have : (e.id.toList = x) ↔ e.id = String.ofList x := by
    rw [← toList_inj, String.toList_ofList]
  simp [this]

theorem setRegion_twin {a b : Att} {cur cur' : Option RInfo} (hc : regionSeen w cur = regionSeen w' cur') (hk : a.kind = b.kind)
    (hr : ∀ e ∈ w.regions, ∀ r ∈ e.refs, (look w.seen r).isSome = true) (hr' : ∀ e ∈ w'.regions, ∀ r ∈ e.refs, (look w'.seen r).isSome = true)
    (h : (a.region = none ∧ b.region = none) ∨ ∃ x y e e', a.region = some x ∧ b.region = some y ∧ found w.regions (refOf x) = some e ∧
      found w'.regions (refOf y) = some e' ∧ regionLook w.seen e = regionLook w'.seen e') :
    ∃ rg rg', setRegion (w.regions.map (infoOf mean pad g w)) a cur = .ok rg ∧
      setRegion (w'.regions.map (infoOf mean pad g w')) b cur' = .ok rg' ∧ regionSeen w rg = regionSeen w' rg' := by
  unfold setRegion
  rw [← hk]
  by_cases hh : Doc.hasRegion a.kind = true
  · simp only [hh, if_true]
    rcases h with ⟨h1, h2⟩ | ⟨x, y, e, e', h1, h2, h3, h4, h5⟩
    · rw [h1, h2]
      exact ⟨cur, cur', rfl, rfl, hc⟩
    · rw [h1, h2]
      simp only [find_info, h3, h4, Option.map_some]
      refine ⟨_, _, rfl, rfl, ?_⟩
      obtain ⟨i1, m1⟩ := found_id h3
      obtain ⟨i2, m2⟩ := found_id h4
      obtain ⟨s1, s2⟩ := info_same (mean := mean) (pad := pad) (g := g) h5 (hr e m1) (hr' e' m2)
      have e1 : (infoOf mean pad g w e).id = x := i1
      have e2 : (infoOf mean pad g w' e').id = y := i2
      simp only [regionSeen, Option.map_some, s1, s2, e1, e2, found_region, h3, h4]
      rw [show e.vals = e'.vals from congrArg Prod.fst h5]
  · rw [if_neg hh, if_neg hh]
    exact ⟨cur, cur', rfl, rfl, hc⟩

theorem leave_twin {a b : Att} {c c' : Ctx} (hc : regionSeen w c.region = regionSeen w' c'.region) (hk : a.kind = b.kind)
    (hs : a.region.isSome = b.region.isSome) : regionSeen w (leave a c).region = regionSeen w' (leave b c').region := by
  simp only [leave, hk, hs]
  split
  · rfl
  · exact hc

mutual
theorem present_twin (hf : ∀ s ∈ w.styles, s.refs = []) (hf' : ∀ s ∈ w'.styles, s.refs = [])
    (hr : ∀ e ∈ w.regions, ∀ r ∈ e.refs, (look w.seen r).isSome = true) (hr' : ∀ e ∈ w'.regions, ∀ r ∈ e.refs, (look w'.seen r).isSome = true) :
    ∀ (n n' : Node Att) (c c' : Ctx) (parent : Option Computed), Twin w w' n n' → regionSeen w c.region = regionSeen w' c'.region →
    ∃ r r', present (w.head mean pad g) (w.regions.map (infoOf mean pad g w)) c parent n = .ok r ∧
      present (w'.head mean pad g) (w'.regions.map (infoOf mean pad g w')) c' parent n' = .ok r' ∧
      LookAlike w w' r.2 r'.2 ∧ regionSeen w r.1.region = regionSeen w' r'.1.region
  | .text s, .text s', c, c', parent, ht, hc => ⟨(c, .text s), (c', .text s'), by rw [present], by rw [present], ht, hc⟩
  | .br, .br, c, c', parent, ht, hc => ⟨(c, .br), (c', .br), by rw [present], by rw [present], trivial, hc⟩
  | .text _, .br, _, _, _, ht, _ => by simp [Twin] at ht
  | .text _, .elem _ _, _, _, _, ht, _ => by simp [Twin] at ht
  | .br, .text _, _, _, _, ht, _ => by simp [Twin] at ht
  | .br, .elem _ _, _, _, _, ht, _ => by simp [Twin] at ht
  | .elem _ _, .text _, _, _, _, ht, _ => by simp [Twin] at ht
  | .elem _ _, .br, _, _, _, ht, _ => by simp [Twin] at ht
  | .elem a ks, .elem b ls, c, c', parent, ht, hc => by
    rw [Twin] at ht
    obtain ⟨hsame, ⟨hfa, hfb, hst⟩, hrg, hkids⟩ := ht
    obtain ⟨rg, rg', h1, h2, h3⟩ := setRegion_twin (mean := mean) (pad := pad) (g := g) hc hsame.1 hr hr' hrg
    have g1 := follows_ok (mean := mean) (pad := pad) (g := g) hf hfa
    have g2 := follows_ok (mean := mean) (pad := pad) (g := g) hf' hfb
    have hspec : resolve (w'.head mean pad g).own (addNew [] b.style) = resolve (w.head mean pad g).own (addNew [] a.style) :=
      resolve_names (.inl hst)
    have hcomp : (label (w.head mean pad g) a c.stack rg parent (addNew [] a.style)).comp =
        (label (w'.head mean pad g) b c'.stack rg' parent (addNew [] b.style)).comp := by
      have hm : rg.map (·.comp) = rg'.map (·.comp) := by
        have := congrArg (Option.map (fun t => t.2.1)) h3
        simpa [regionSeen, Option.map_map, Function.comp_def] using this
      simp only [label, hspec, hm, hsame.1]
      rfl
    obtain ⟨q, q', k1, k2, k3, k4⟩ := presentL_twin hf hf' hr hr' ks ls ⟨c.stack ++ [addNew [] a.style], rg⟩ ⟨c'.stack ++ [addNew [] b.style], rg'⟩
      (some (label (w.head mean pad g) a c.stack rg parent (addNew [] a.style)).comp) hkids h3
    refine ⟨(leave a q.1, .elem (label (w.head mean pad g) a c.stack rg parent (addNew [] a.style)) q.2),
      (leave b q'.1, .elem (label (w'.head mean pad g) b c'.stack rg' parent (addNew [] b.style)) q'.2), ?_, ?_, ?_, ?_⟩
    · rw [present]
      simp only [h1, g1, bind, Except.bind, k1]
      rfl
    · rw [present]
      simp only [h2, g2, bind, Except.bind]
      rw [← hcomp, k2]
      rfl
    · refine ⟨hsame, ?_, hcomp, h3, k3⟩
      exact hspec.symm
    · apply leave_twin k4 hsame.1
      rcases hrg with ⟨r1, r2⟩ | ⟨x, y, _, _, r1, r2, _⟩ <;> rw [r1, r2]
      rfl
theorem presentL_twin (hf : ∀ s ∈ w.styles, s.refs = []) (hf' : ∀ s ∈ w'.styles, s.refs = [])
    (hr : ∀ e ∈ w.regions, ∀ r ∈ e.refs, (look w.seen r).isSome = true) (hr' : ∀ e ∈ w'.regions, ∀ r ∈ e.refs, (look w'.seen r).isSome = true) :
    ∀ (ks ls : List (Node Att)) (c c' : Ctx) (parent : Option Computed), TwinL w w' ks ls → regionSeen w c.region = regionSeen w' c'.region →
    ∃ r r', presentL (w.head mean pad g) (w.regions.map (infoOf mean pad g w)) c parent ks = .ok r ∧
      presentL (w'.head mean pad g) (w'.regions.map (infoOf mean pad g w')) c' parent ls = .ok r' ∧
      LookAlikeL w w' r.2 r'.2 ∧ regionSeen w r.1.region = regionSeen w' r'.1.region
  | [], [], c, c', parent, _, hc => ⟨(c, []), (c', []), by rw [presentL], by rw [presentL], trivial, hc⟩
  | [], _ :: _, _, _, _, ht, _ => by simp [TwinL] at ht
  | _ :: _, [], _, _, _, ht, _ => by simp [TwinL] at ht
  | k :: ks, l :: ls, c, c', parent, ht, hc => by
    rw [TwinL] at ht
    obtain ⟨r, r', h1, h2, h3, h4⟩ := present_twin hf hf' hr hr' k l c c' parent ht.1 hc
    obtain ⟨q, q', k1, k2, k3, k4⟩ := presentL_twin hf hf' hr hr' ks ls r.1 r'.1 parent ht.2 h4
    refine ⟨(q.1, r.2 :: q.2), (q'.1, r'.2 :: q'.2), ?_, ?_, ⟨h3, k3⟩, k4⟩
    · rw [presentL]; simp only [h1, bind, Except.bind, k1]; rfl
    · rw [presentL]; simp only [h2, bind, Except.bind, k2]; rfl
end

/-! #### Putting the references in -/

/-- An element's references before and after. -/
def Kept (w w' : Whole) (u u' : DUse) : Prop :=
  (∀ r ∈ u.refs, (look w.seen r).isSome = true) ∧ useLook w'.seen u' = (keepFirst (useLook w.seen u).1, (useLook w.seen u).2) ∧
  (u.region = none → u'.region = none) ∧ (∀ x, u.region = some x → (found w.regions (some x)).isSome = true)

theorem mem_keepFirst {α : Type} [DecidableEq α] : ∀ {l : List α} {x : α}, x ∈ keepFirst l → x ∈ l
  | [], x, h => h
  | y :: l, x, h => by
    rw [keepFirst, List.mem_cons] at h
    rcases h with h | h
    · exact h ▸ List.mem_cons_self
    · exact List.mem_cons_of_mem _ (mem_keepFirst (List.mem_filter.1 h).1)

theorem kept_twin {a : Att} {u' : DUse} (h : Kept w w' ⟨a.style.map refOf, a.region.bind refOf⟩ u') :
    (Follows w a.style ∧ Follows w' (u'.refs.map nameOf) ∧
      (u'.refs.map nameOf).map (fun r => look w'.seen (refOf r)) = keepFirst (a.style.map (fun r => look w.seen (refOf r)))) ∧
    ((a.region = none ∧ u'.region.map String.toList = none) ∨ ∃ x y e e', a.region = some x ∧ u'.region.map String.toList = some y ∧
      found w.regions (refOf x) = some e ∧ found w'.regions (refOf y) = some e' ∧ regionLook w.seen e = regionLook w'.seen e') := by
  obtain ⟨h1, h2, h3, h4⟩ := h
  have hl : u'.refs.map (look w'.seen) = keepFirst ((a.style.map refOf).map (look w.seen)) := congrArg Prod.fst h2
  have hall : ∀ r ∈ u'.refs, (look w'.seen r).isSome = true := by
    intro r hr
    have : look w'.seen r ∈ keepFirst ((a.style.map refOf).map (look w.seen)) := hl ▸ List.mem_map_of_mem hr
    obtain ⟨q, hq, he⟩ := List.mem_map.1 (mem_keepFirst this)
    rw [← he]
    exact h1 q hq
  refine ⟨⟨fun r hr => h1 _ (List.mem_map_of_mem hr), ?_, ?_⟩, ?_⟩
  · intro r hr
    obtain ⟨q, hq, rfl⟩ := List.mem_map.1 hr
    cases q with
    | none => have := hall none hq; simp [look, found] at this
    | some x => rw [refOf_nameOf]; exact hall _ hq
  · rw [map_refOf_nameOf hall, hl, List.map_map]
    rfl
  · cases hx : a.region with
    | none =>
      left
      refine ⟨rfl, ?_⟩
      rw [h3 (by simp [hx])]
      rfl
    | some x =>
      right
      obtain ⟨e, he⟩ := Option.isSome_iff_exists.1 (h4 (String.ofList x) (by simp [hx, refOf]))
      have hr : (found w'.regions u'.region).map (regionLook w'.seen) = (found w.regions (some (String.ofList x))).map (regionLook w.seen) := by
        have := congrArg Prod.snd h2
        simp only [useLook, hx, refOf, Option.bind_some] at this
        exact this
      rw [he, Option.map_some, Option.map_eq_some_iff] at hr
      obtain ⟨e', he', hlk⟩ := hr
      cases hy : u'.region with
      | none => rw [hy] at he'; simp [found] at he'
      | some y =>
        rw [hy] at he'
        refine ⟨x, y.toList, e, e', rfl, rfl, he, ?_, hlk.symm⟩
        rw [refOf, String.ofList_toList]
        exact he'

mutual
theorem fill_twin : ∀ (n : Node Att) (us rest : List DUse), List.Forall₂ (Kept w w') (usesOf n) us →
    (fill (us ++ rest) n).1 = rest ∧ Twin w w' n (fill (us ++ rest) n).2
  | .text s, us, rest, h => by
    rw [usesOf] at h; cases h; simp [fill, Twin]
  | .br, us, rest, h => by
    rw [usesOf] at h; cases h; simp [fill, Twin]
  | .elem a kids, us, rest, h => by
    rw [usesOf] at h
    cases h with
    | cons h1 h2 =>
      rename_i u us
      obtain ⟨k1, k2⟩ := fillL_twin kids us rest h2
      obtain ⟨t1, t2⟩ := kept_twin h1
      rw [List.cons_append, fill]
      refine ⟨k1, ?_⟩
      rw [Twin]
      exact ⟨⟨rfl, rfl, rfl, rfl, rfl⟩, t1, t2, k2⟩
theorem fillL_twin : ∀ (ks : List (Node Att)) (us rest : List DUse), List.Forall₂ (Kept w w') (usesOfL ks) us →
    (fillL (us ++ rest) ks).1 = rest ∧ TwinL w w' ks (fillL (us ++ rest) ks).2
  | [], us, rest, h => by
    rw [usesOfL] at h; cases h; simp [fillL, TwinL]
  | k :: ks, us, rest, h => by
    rw [usesOfL] at h
    obtain ⟨us1, us2, h1, h2, rfl⟩ : ∃ us1 us2, List.Forall₂ (Kept w w') (usesOf k) us1 ∧ List.Forall₂ (Kept w w') (usesOfL ks) us2 ∧ us = us1 ++ us2 := by
      refine ⟨us.take (usesOf k).length, us.drop (usesOf k).length, ?_, ?_, (List.take_append_drop _ _).symm⟩
      · simpa using List.forall₂_take (usesOf k).length h
      · simpa using List.forall₂_drop (usesOf k).length h
    obtain ⟨k1, k2⟩ := fill_twin k us1 (us2 ++ rest) h1
    obtain ⟨l1, l2⟩ := fillL_twin ks us2 rest h2
    rw [List.append_assoc, fillL]
    simp only [k1]
    exact ⟨l1, k2, l2⟩
end

end

theorem mapM_forall {α β : Type} {f : α → Option β} : ∀ {l : List α} {l' : List β}, l.mapM f = some l' → List.Forall₂ (fun a b => f a = some b) l l'
  | [], l', h => by simp at h; subst h; exact .nil
  | a :: l, l', h => by
    rw [List.mapM_cons] at h
    cases ha : f a with
    | none => rw [ha] at h; simp at h
    | some b =>
      cases hl : l.mapM f with
      | none => rw [ha, hl] at h; simp at h
      | some bs =>
        rw [ha, hl] at h
        simp at h
        subst h
        exact .cons ha (mapM_forall hl)

/-- No region is given to an element that has none. -/
theorem dedup_regions {h : List Char → Int} {order : List (Int × DElem) → List (Int × DElem)} {d d' : DDoc} (hd : Dedup.dedup h order d = some d') :
    List.Forall₂ (fun u u' : DUse => u.region = none → u'.region = none) d.uses d'.uses := by
  unfold Dedup.dedup at hd
  simp only at hd
  rw [Option.bind_eq_some_iff] at hd
  obtain ⟨st, _, hd⟩ := hd
  rw [Option.bind_eq_some_iff] at hd
  obtain ⟨rg, _, hd⟩ := hd
  rw [Option.map_eq_some_iff] at hd
  obtain ⟨us, hus, rfl⟩ := hd
  refine (mapM_forall hus).imp ?_
  intro u u' hu hn
  unfold Dedup.replaceUse at hu
  rw [Option.map_eq_some_iff] at hu
  obtain ⟨r, _, rfl⟩ := hu
  simp only [hn, Dedup.DState.renamed, Option.bind_none]

theorem forall_of_map {α β γ : Type} {f : β → γ} {g : α → γ} {Q : α → β → Prop} {P : α → β → Prop} : ∀ {l : List α} {l' : List β},
    l'.map f = l.map g → List.Forall₂ Q l l' → (∀ a ∈ l, ∀ b, f b = g a → Q a b → P a b) → List.Forall₂ P l l'
  | [], _, _, .nil, _ => .nil
  | a :: l, _, h1, .cons h2 h3, h4 => by
    rw [List.map_cons, List.map_cons, List.cons.injEq] at h1
    exact .cons (h4 a List.mem_cons_self _ h1.1 h2) (forall_of_map h1.2 h3 (fun x hx => h4 x (List.mem_cons_of_mem _ hx)))

theorem validated_twin {mean : List (Option Val) → Specified} {pad : List (Option Val) → Option Val} {g : Geometry} {w w' : Whole}
    (hf : ∀ s ∈ w.styles, s.refs = []) (hf' : ∀ s ∈ w'.styles, s.refs = [])
    (hr : ∀ e ∈ w.regions, ∀ r ∈ e.refs, (look w.seen r).isSome = true) (hr' : ∀ e ∈ w'.regions, ∀ r ∈ e.refs, (look w'.seen r).isSome = true)
    (htw : Twin w w' w.body w'.body) :
    ∃ infos doc infos' doc', w.validated mean pad g = .ok (infos, doc) ∧ w'.validated mean pad g = .ok (infos', doc') ∧
      LookAlike w w' doc doc' := by
  have hfol : ∀ v : Whole, (∀ e ∈ v.regions, ∀ r ∈ e.refs, (look v.seen r).isSome = true) → ∀ e ∈ v.regions, Follows v (e.refs.map nameOf) := by
    intro v hv e he r hre
    obtain ⟨q, hq, rfl⟩ := List.mem_map.1 hre
    cases q with
    | none => have := hv e he none hq; simp [look, found] at this
    | some x => rw [refOf_nameOf]; exact hv e he _ hq
  obtain ⟨r, r', p1, p2, p3, _⟩ := present_twin (mean := mean) (pad := pad) (g := g) hf hf' hr hr' w.body w'.body ⟨[], none⟩ ⟨[], none⟩ none htw rfl
  refine ⟨w.regions.map (infoOf mean pad g w), r.2, w'.regions.map (infoOf mean pad g w'), r'.2, ?_, ?_, p3⟩
  · unfold Whole.validated presentDoc
    rw [regions_ok mean pad g hf (hfol w hr)]
    simp only [bind, Except.bind]
    rw [p1]
    rfl
  · unfold Whole.validated presentDoc
    rw [regions_ok mean pad g hf' (hfol w' hr')]
    simp only [bind, Except.bind]
    rw [p2]
    rfl

/-- Every region left comes from a region of the document, in one way. -/
theorem dedup_origin {h : List Char → Int} {order : List (Int × DElem) → List (Int × DElem)} {d d' : DDoc} (hc : Dedup.Clean h d)
    (ho : ∀ l, (order l).Perm l) (hd : Dedup.dedup h order d = some d') :
    ∃ f : DElem → Option DElem, ∀ e' ∈ d'.regions, ∃ e ∈ d.regions, e'.id = e.id ∧ e'.vals = e.vals ∧ f e = some e' := by
  have P := Dedup.passes h order ho d hc
  unfold Dedup.dedup at hd
  simp only at hd P
  rw [Option.bind_eq_some_iff] at hd
  obtain ⟨st, _, hd⟩ := hd
  rw [Option.bind_eq_some_iff] at hd
  obtain ⟨rg, hrg, hd⟩ := hd
  rw [Option.map_eq_some_iff] at hd
  obtain ⟨us, _, rfl⟩ := hd
  generalize (Dedup.appendNew d.regions _ _).1.renamed = rn at P hrg
  generalize (Dedup.appendNew d.styles _ _).1.renamed = m at P
  refine ⟨fun e => Dedup.replaceElem rn (Dedup.withRefs m e), ?_⟩
  intro e' he'
  obtain ⟨i, hi, rfl⟩ := List.mem_iff_getElem.1 he'
  have hall := mapM_forall hrg
  have hi' : i < _ := hall.length_eq ▸ hi
  have hf := (List.forall₂_iff_get.1 hall).2 i hi' hi
  obtain ⟨v, hv, hve⟩ := P.regionOf _ (List.get_mem _ ⟨i, hi'⟩)
  rw [hve] at hf
  refine ⟨v, hv, ?_, ?_, hf⟩ <;>
  · unfold Dedup.replaceElem at hf
    rw [Option.map_eq_some_iff] at hf
    obtain ⟨r, _, hr⟩ := hf
    have hr : { Dedup.withRefs m v with refs := r } = rg[i] := hr
    show _ = _
    rw [← hr]
    rfl

/-- Different regions on the identifiers of one document. -/
theorem nodup_id {l : List DElem} (hn : (l.map DElem.id).Nodup) : ∀ e ∈ l, ∀ e' ∈ l, e.id = e'.id → e = e' := by
  induction l with
  | nil => intro e he; cases he
  | cons x l ih =>
    rw [List.map_cons, List.nodup_cons] at hn
    intro e he e' he' hid
    rcases List.mem_cons.1 he with rfl | he <;> rcases List.mem_cons.1 he' with rfl | he'
    · rfl
    · exact absurd (hid ▸ List.mem_map_of_mem he') hn.1
    · rename_i h1; exact absurd (hid ▸ List.mem_map_of_mem h1) hn.1
    · exact ih hn.2 e he e' he' hid

theorem clean_regions {h : List Char → Int} {d : DDoc} (hc : Dedup.Clean h d) : (d.regions.map DElem.id).Nodup := by
  have := hc.ids
  rw [List.map_append] at this
  exact (List.nodup_append.1 this).2.1

/-- What is known of the deduplicated document. -/
theorem dedup_twin (h : List Char → Int) (order : List (Int × DElem) → List (Int × DElem)) (ho : ∀ l, (order l).Perm l)
    (w : Whole) (hc : Dedup.Clean h w.seen) :
    ∃ w', dedupWhole h order w = some w' ∧ (∀ s ∈ w'.styles, s ∈ w.styles) ∧
      (∀ e ∈ w.regions, ∀ r ∈ e.refs, (look w.seen r).isSome = true) ∧ (∀ e ∈ w'.regions, ∀ r ∈ e.refs, (look w'.seen r).isSome = true) ∧
      Twin w w' w.body w'.body ∧ (∀ e ∈ w.regions, ∃ e' ∈ w'.regions, e'.vals = e.vals) ∧
      (∀ e' ∈ w'.regions, ∃ e ∈ w.regions, e'.vals = e.vals) ∧
      ∀ e ∈ w'.regions, ∀ e' ∈ w'.regions, e.id = e'.id → e = e' := by
  obtain ⟨d', hd, ⟨s1, s2, s3⟩, ⟨r1, r2⟩, hu⟩ := Dedup.C42_appearance_kept_partial h order ho w.seen hc
  let w' : Whole := ⟨d'.styles, d'.regions, (fill d'.uses w.body).2⟩
  have hw : dedupWhole h order w = some w' := by rw [dedupWhole, hd]; rfl
  have hsome : ∀ r, (∃ s ∈ w.styles, r = some s.id) → (look w.seen r).isSome = true := by
    rintro r ⟨s, hs, rfl⟩
    rw [look_found]
    have : ∃ x, w.styles.find? (fun e => decide (e.id = s.id)) = some x := by
      rw [← Option.isSome_iff_exists, List.find?_isSome]
      exact ⟨s, hs, by simp⟩
    obtain ⟨x, hx⟩ := this
    show (Option.bind (some s.id) (fun x => w.styles.find? (fun e => decide (e.id = x)))).isSome = true
    rw [Option.bind_some, hx]
    rfl
  have hr : ∀ e ∈ w.regions, ∀ r ∈ e.refs, (look w.seen r).isSome = true := fun e he r hr => hsome r (hc.regionRefs e he r hr)
  have hr' : ∀ e ∈ w'.regions, ∀ r ∈ e.refs, (look w'.seen r).isSome = true := by
    intro e he r hre
    have hm : regionLook d' e ∈ w.seen.regions.map (regionLook w.seen) := (r2 _).1 (List.mem_map_of_mem he)
    obtain ⟨e0, he0, hlk⟩ := List.mem_map.1 hm
    have hl : e0.refs.map (look w.seen) = e.refs.map (look d') := congrArg Prod.snd hlk
    have : look d' r ∈ e0.refs.map (look w.seen) := hl ▸ List.mem_map_of_mem hre
    obtain ⟨q, hq, hqe⟩ := List.mem_map.1 this
    show (look d' r).isSome = true
    rw [← hqe]
    exact hr e0 he0 q hq
  have hkept : List.Forall₂ (Kept w w') (usesOf w.body) d'.uses := by
    refine forall_of_map (f := useLook d') (g := fun u => (keepFirst (useLook w.seen u).1, (useLook w.seen u).2)) hu (dedup_regions hd) ?_
    intro u hu u' hlk hn
    refine ⟨fun r hr => hsome r (hc.useRefs u hu r hr), hlk, hn, ?_⟩
    intro x hx
    obtain ⟨e, he, hid⟩ := hc.useRegion u hu x hx
    show (w.regions.find? (fun e => decide (e.id = x))).isSome = true
    rw [List.find?_isSome]
    exact ⟨e, he, by simp [hid]⟩
  have htw : Twin w w' w.body w'.body := by
    have := (fill_twin w.body d'.uses [] hkept).2
    rw [List.append_nil] at this
    exact this
  refine ⟨w', hw, s1, hr, hr', htw, ?_, ?_, ?_⟩
  · intro e he
    obtain ⟨e', he', hl⟩ := List.mem_map.1 ((r2 (regionLook w.seen e)).2 (List.mem_map_of_mem he))
    exact ⟨e', he', congrArg Prod.fst hl⟩
  · intro e' he'
    obtain ⟨e, he, hl⟩ := List.mem_map.1 ((r2 (regionLook d' e')).1 (List.mem_map_of_mem he'))
    exact ⟨e, he, (congrArg Prod.fst hl).symm⟩
  · obtain ⟨f, hf⟩ := dedup_origin hc ho hd
    intro e he e' he' hid
    obtain ⟨a, ha, a1, _, a2⟩ := hf e he
    obtain ⟨b, hb, b1, _, b2⟩ := hf e' he'
    have := nodup_id (clean_regions hc) a ha b hb (by rw [← a1, ← b1, hid])
    subst this
    exact Option.some.inj (a2.symm.trans b2)

/-- **C105, partial.**  Whatever attribute values mean and in whatever order Python's dictionaries give their entries: a document for which
`Clean` holds is deduplicated without an error, before and afterwards it is valid, and it looks the same: in particular every element has
the same computed style.  Missing: documents that are not `Clean`, see `C105_false_style_reference` and the `C42_false` theorems. -/
theorem C105_looks_alike_partial (h : List Char → Int) (order : List (Int × DElem) → List (Int × DElem)) (ho : ∀ l, (order l).Perm l)
    (w : Whole) (hc : Dedup.Clean h w.seen) (mean : List (Option Val) → Specified) (pad : List (Option Val) → Option Val) (g : Geometry) :
    ∃ w' infos doc infos' doc', dedupWhole h order w = some w' ∧ w.validated mean pad g = .ok (infos, doc) ∧
      w'.validated mean pad g = .ok (infos', doc') ∧ LookAlike w w' doc doc' := by
  obtain ⟨w', hw, s1, hr, hr', htw, _⟩ := dedup_twin h order ho w hc
  obtain ⟨infos, doc, infos', doc', h1, h2, h3⟩ := validated_twin (mean := mean) (pad := pad) (g := g) hc.flat (fun s hs => hc.flat s (s1 s hs)) hr hr' htw
  exact ⟨w', infos, doc, infos', doc', hw, h1, h2, h3⟩

/-- A document with the styles and regions of `Dedup.exDedup`: two of the three styles and both regions are alike. -/
def exWhole : Whole where
  styles := Dedup.exDedup.styles
  regions := Dedup.exDedup.regions
  body := .elem { kind := .body } [.elem { kind := .div, style := ["s1".toList, "s2".toList], region := some "r1".toList } [
    .elem { kind := .p, style := ["s2".toList, "s3".toList] } [.text "x".toList, .br],
    .elem { kind := .p, style := ["s1".toList, "s2".toList, "s3".toList], region := some "r2".toList } [.text "y".toList]]]

theorem exWhole_clean : Dedup.Clean Dedup.code exWhole.seen where
  ids := by decide
  plainIds := by decide
  flat := by decide
  values := by decide
  differ := by decide
  regionRefs := by decide
  useRefs := by decide +kernel
  useRegion := by
    intro u hu x hx
    have : ∀ u ∈ exWhole.seen.uses, u.region.all (fun x => exWhole.seen.regions.any (fun e => decide (e.id = x))) = true := by decide +kernel
    have := this u hu
    rw [hx] at this
    simpa using this
  noRepeatsIn := by decide +kernel
  noNested := by
    have hs : exWhole.seen.uses = ⟨[], none⟩ :: Dedup.exDedup.uses := by decide +kernel
    intro u hu
    rw [hs, List.mem_cons] at hu
    rcases hu with rfl | hu
    · exact trivial
    · exact Dedup.exDedup_clean.noNested u hu
  hash := fun a b _ _ h => Dedup.code_inj a b h

/-- What the attribute values of a style mean: the second one is its colour. -/
def exMean (l : List (Option Val)) : Specified := { inh := fun x => match x with | .color => (l[1]?).join | _ => none }

/-- References, region and computed colour of every element. -/
def seenOf (w : Whole) : Option (List (List Name × Option Name × Option Val)) :=
  (w.validated exMean (fun _ => none) ⟨10, 20⟩).toOption.map (fun r =>
    (labels r.2).map (fun x => (x.att.style, x.region.map (·.id), (x.comp.inh .color).1)))

example : ∃ w' infos doc infos' doc', dedupWhole Dedup.code id exWhole = some w' ∧
    exWhole.validated exMean (fun _ => none) ⟨10, 20⟩ = .ok (infos, doc) ∧
    w'.validated exMean (fun _ => none) ⟨10, 20⟩ = .ok (infos', doc') ∧ LookAlike exWhole w' doc doc' :=
  C105_looks_alike_partial Dedup.code id (fun l => List.Perm.refl l) exWhole exWhole_clean _ _ _

/-- What it comes to: other references, the same colours. -/
example : seenOf exWhole = some [([], none, none), (["s1".toList, "s2".toList], some "r1".toList, some "red".toList),
      (["s2".toList, "s3".toList], some "r1".toList, some "red".toList),
      (["s1".toList, "s2".toList, "s3".toList], some "r2".toList, some "red".toList)] ∧
    (dedupWhole Dedup.code id exWhole).bind seenOf = some [([], none, none),
      (["s3".toList, "s2".toList], some "r2".toList, some "red".toList), (["s2".toList, "s3".toList], some "r2".toList, some "red".toList),
      (["s3".toList, "s2".toList], some "r2".toList, some "red".toList)] :=
  ⟨by decide +kernel, by decide +kernel⟩

/-- A style that refers to a style. -/
def exChained : Whole where
  styles := [⟨"s1", [], [none, some "red".toList], []⟩, ⟨"s2", [some "s1"], [some "50%".toList, none], []⟩]
  regions := []
  body := .elem { kind := .body } [.elem { kind := .div } [.elem { kind := .p, style := ["s2".toList] } [.text "x".toList]]]

/-- C105 fails for a style that refers to a style: what is valid before is not valid afterwards, so that the node raises instead of passing
the document on. -/
theorem C105_false_style_reference :
    seenOf exChained = some [([], none, none), ([], none, none), (["s2".toList], none, some "red".toList)] ∧
    (dedupWhole Dedup.code id exChained).map (fun w => match w.validated exMean (fun _ => none) ⟨10, 20⟩ with
      | .error e => some e
      | .ok _ => none) = some (some (.style (.missing "None".toList))) := by decide +kernel

end Verif.Style
