import Verif.Style.PresentProps

/-
C30 and C31 for whole documents: the computed style of every element of a validated document.
-/
namespace Verif.Style

open Verif.Doc (Node Att Kind Reach)

/-! ### Specification -/

/-- The initial values of the inherited attributes. Colour has none. -/
def initial : IAttr → Option Val
  | .color => none
  | .direction => some "ltr".toList
  | .fontFamily => some "default".toList
  | .fontStyle => some "normal".toList
  | .fontWeight => some "normal".toList
  | .linePadding => some "0c".toList
  | .multiRowAlign => some "auto".toList
  | .textAlign => some "start".toList
  | .textDecoration => some "none".toList
  | .wrapOption => some "wrap".toList

/-- The initial values of the attributes that are not inherited. -/
def initialSimple : SAttr → Val
  | .backgroundColor => "transparent".toList
  | .padding => "0px".toList
  | .unicodeBidi => "normal".toList

/-- One element, or a region, applied to the font size around it: an absolute size replaces it, a percentage scales it, per
direction. -/
def applySize (g : Geometry) (z : Rat × Rat) : Option FS → Rat × Rat
  | none => z
  | some (.cell ⟨some h, v⟩) => (h, v)
  | some (.cell ⟨none, v⟩) => (v, v)
  | some (.px ⟨some h, v⟩) => (h * g.kh, v * g.kv)
  | some (.px ⟨none, v⟩) => (v * g.kv, v * g.kv)
  | some (.pct ⟨some h, v⟩) => (z.1 * h / 100, z.2 * v / 100)
  | some (.pct ⟨none, v⟩) => (z.1 * v / 100, z.2 * v / 100)

/-! ### Lemmas -/

theorem applySize_eq (g : Geometry) (z : Rat × Rat) (f : Option FS) : applySize g z f = sizeStep g z f := by
  rcases f with _ | (⟨_ | _, _⟩ | ⟨_ | _, _⟩ | ⟨_ | _, _⟩) <;> rfl

theorem specSize_fold (g : Geometry) : ∀ (ls : List Level) (z : Rat × Rat),
    specSize g z ls = (ls.map (·.spec.fs)).foldl (applySize g) z
  | [], _ => rfl
  | l :: ls, z => by
    rw [List.map_cons, List.foldl_cons, ← specSize_fold g ls, applySize_eq]
    simp only [specSize]
    rcases l.spec.fs with _ | (_ | _ | ⟨_ | _, _⟩) <;> rfl

theorem presentRegions_comp {hd : Head} : ∀ {rs : List RegionDef} {infos : List RInfo}, presentRegions hd rs = .ok infos →
    ∀ i ∈ infos, i.comp = regionStyle hd.geo i.spec
  | [], infos, h, i, hi => by rw [presentRegions] at h; cases h; simp at hi
  | r :: rs, infos, h, i, hi => by
    rw [presentRegions] at h
    cases h1 : presentRegion hd r with
    | error e => rw [h1] at h; cases h
    | ok j =>
      cases h2 : presentRegions hd rs with
      | error e => rw [h1, h2] at h; cases h
      | ok js =>
        rw [h1, h2] at h
        cases h
        rcases List.mem_cons.1 hi with he | he
        · subst he
          rw [presentRegion] at h1
          cases h3 : refStyles hd r.refs with
          | error e => rw [h3] at h1; cases h1
          | ok l => rw [h3] at h1; cases h1; rfl
        · exact presentRegions_comp h2 i he

/-- The region of an element is one of the layout. -/
def RegionKnown (infos : List RInfo) (_ : List PLab) (x : PLab) : Prop := ∀ i, x.region = some i → i ∈ infos

theorem setRegion_known {infos : List RInfo} {a : Att} {cur rg : Option RInfo} (h : setRegion infos a cur = .ok rg)
    (hc : ∀ i, cur = some i → i ∈ infos) : ∀ i, rg = some i → i ∈ infos := by
  intro i hi
  obtain ⟨h1, h2⟩ := setRegion_ok h
  cases ho : ownRegion a with
  | none => exact hc i (by rw [← h1 ho]; exact hi)
  | some r =>
    obtain ⟨j, hj, he, _⟩ := h2 r ho
    rw [hi] at he
    cases he
    exact hj

mutual
theorem present_known {hd : Head} {infos : List RInfo} : ∀ {n : Node Att} {c : Ctx} {parent : Option Computed} {r : Ctx × Node PLab}
    {anc : List PLab}, present hd infos c parent n = .ok r → (∀ i, c.region = some i → i ∈ infos) →
    Every (RegionKnown infos) anc r.2
  | .text s, c, parent, r, anc, h, _ => by rw [present] at h; cases h; trivial
  | .br, c, parent, r, anc, h, _ => by rw [present] at h; cases h; trivial
  | .elem a kids, c, parent, r, anc, h, hc => by
    obtain ⟨rg, refd, q, h1, _, h3, hr⟩ := present_elem h
    subst hr
    have hk := setRegion_known h1 hc
    exact ⟨hk, presentL_known h3 hk⟩
theorem presentL_known {hd : Head} {infos : List RInfo} : ∀ {ks : List (Node Att)} {c : Ctx} {parent : Option Computed}
    {r : Ctx × List (Node PLab)} {anc : List PLab}, presentL hd infos c parent ks = .ok r → (∀ i, c.region = some i → i ∈ infos) →
    EveryL (RegionKnown infos) anc r.2
  | [], c, parent, r, anc, h, _ => by rw [presentL] at h; cases h; trivial
  | k :: ks, c, parent, r, anc, h, hc => by
    obtain ⟨q, qs, h1, h2, hr⟩ := presentL_cons h
    subst hr
    refine ⟨present_known h1 hc, presentL_known h2 ?_⟩
    intro i hi
    rw [present_region h1] at hi
    split at hi
    · exact hc i hi
    · cases hi
end

theorem reach_anc {α : Type} {root n : Node α} {anc : List α} (hr : Reach root anc n) {y : α} (hy : y ∈ anc) :
    ∃ anc' ks, Reach root anc' (.elem y ks) := by
  induction hr with
  | here => simp at hy
  | @step anc' x' ks' k' hr' hk' ih =>
    rcases List.mem_append.1 hy with h | h
    · exact ih h
    · rw [List.mem_singleton] at h; rw [h]; exact ⟨_, _, hr'⟩

/-- An element and those around it are elements of the document. -/
theorem reach_around {α : Type} {root : Node α} {anc : List α} {e : α} {kids : List (Node α)} (hr : Reach root anc (.elem e kids)) {y : α}
    (hy : y ∈ anc ++ [e]) : ∃ anc' ks, Reach root anc' (.elem y ks) := by
  rcases List.mem_append.1 hy with h | h
  · exact reach_anc hr h
  · rw [List.mem_singleton] at h; rw [h]; exact ⟨_, _, hr⟩

/-- Of the given elements the first ones are in no region, the others in `cur`; the region, if there is one, starts with a div or
p. -/
def SplitAt (cur : Option RInfo) (l : List PLab) : Prop :=
  ∃ pre suf, l = pre ++ suf ∧ (∀ y ∈ pre, y.region = none) ∧ (∀ y ∈ suf, y.region = cur) ∧
    (cur = none ∨ ∃ z zs, suf = z :: zs ∧ Doc.hasRegion z.att.kind = true)

/-- From some element inwards all are in the same region, before that in none. -/
def RegionSplit (anc : List PLab) (x : PLab) : Prop := SplitAt x.region (anc ++ [x])

mutual
theorem present_split {hd : Head} {infos : List RInfo} : ∀ {n : Node Att} {c : Ctx} {parent : Option Computed} {r : Ctx × Node PLab}
    {anc : List PLab}, present hd infos c parent n = .ok r → (noRegions n = true ∨ unnested n = true ∧ c.region = none) →
    SplitAt c.region anc → Every RegionSplit anc r.2
  | .text s, c, parent, r, anc, h, _, _ => by rw [present] at h; cases h; trivial
  | .br, c, parent, r, anc, h, _, _ => by rw [present] at h; cases h; trivial
  | .elem a kids, c, parent, r, anc, h, hn, hs => by
    obtain ⟨rg, refd, q, h1, _, h3, hr⟩ := present_elem h
    subst hr
    obtain ⟨k1, k2⟩ := setRegion_ok h1
    have hx : RegionSplit anc (label hd a c.stack rg parent refd) := by
      obtain ⟨pre, suf, hl, hp, hq, hz⟩ := hs
      show SplitAt rg _
      cases ho : ownRegion a with
      | none =>
        refine ⟨pre, suf ++ [label hd a c.stack rg parent refd], by rw [hl, List.append_assoc], hp, ?_, ?_⟩
        · intro y hy
          rcases List.mem_append.1 hy with h | h
          · rw [k1 ho]; exact hq y h
          · rw [List.mem_singleton] at h; rw [h]; rfl
        · rw [k1 ho]
          rcases hz with h | ⟨z, zs, h, hk⟩
          · exact .inl h
          · exact .inr ⟨z, zs ++ [_], by rw [h]; rfl, hk⟩
      | some rn =>
        have hcn : c.region = none := by
          rcases hn with h | h
          · rw [noRegions, ho] at h; simp at h
          · exact h.2
        refine ⟨anc, [label hd a c.stack rg parent refd], rfl, ?_, ?_, .inr ⟨_, [], rfl, ?_⟩⟩
        · intro y hy
          rw [hl] at hy
          rcases List.mem_append.1 hy with h | h
          · exact hp y h
          · rw [hq y h, hcn]
        · intro y hy
          rw [List.mem_singleton] at hy; rw [hy]; rfl
        · show Doc.hasRegion a.kind = true
          rw [ownRegion] at ho
          split at ho
          · assumption
          · cases ho
    refine ⟨hx, presentL_split h3 ?_ hx⟩
    show noRegionsL kids = true ∨ unnestedL kids = true ∧ rg = none
    rcases hn with hn | hn
    · rw [noRegions, Bool.and_eq_true] at hn; exact .inl hn.2
    · rw [unnested] at hn
      cases ho : ownRegion a with
      | none => rw [ho] at hn; exact .inr ⟨hn.1, by rw [k1 ho]; exact hn.2⟩
      | some rn => rw [ho] at hn; exact .inl hn.1
theorem presentL_split {hd : Head} {infos : List RInfo} : ∀ {ks : List (Node Att)} {c : Ctx} {parent : Option Computed}
    {r : Ctx × List (Node PLab)} {anc : List PLab}, presentL hd infos c parent ks = .ok r →
    (noRegionsL ks = true ∨ unnestedL ks = true ∧ c.region = none) → SplitAt c.region anc → EveryL RegionSplit anc r.2
  | [], c, parent, r, anc, h, _, _ => by rw [presentL] at h; cases h; trivial
  | k :: ks, c, parent, r, anc, h, hn, hs => by
    obtain ⟨q, qs, h1, h2, hr⟩ := presentL_cons h
    subst hr
    have hq := present_region h1
    rw [noRegionsL, unnestedL, Bool.and_eq_true, Bool.and_eq_true] at hn
    rcases hn with hn | hn
    · rw [hn.1, if_pos rfl] at hq
      exact ⟨present_split h1 (.inl hn.1) hs, presentL_split h2 (.inl hn.2) (by rw [hq]; exact hs)⟩
    · have hqn : q.1.region = none := by rw [hq, hn.2]; split <;> rfl
      exact ⟨present_split h1 (.inr ⟨hn.1.1, hn.2⟩) hs,
        presentL_split h2 (.inr ⟨hn.1.2, hqn⟩) (by rw [hqn, ← hn.2]; exact hs)⟩
end

/-- The elements around an element: body and divs, then at most one p, then spans. -/
def Layered (l : List PLab) : Prop :=
  (∀ y ∈ l, y.att.kind = .body ∨ y.att.kind = .div) ∨
  ∃ cs p spans, l = cs ++ p :: spans ∧ (∀ y ∈ cs, y.att.kind = .body ∨ y.att.kind = .div) ∧ p.att.kind = .p ∧
    ∀ y ∈ spans, y.att.kind = .span

theorem Layered.step {l : List PLab} {last x : PLab} {kids : List (Node Att)} (h : Layered (l ++ [last]))
    (hf : Doc.fits last.att.kind (.elem x.att kids) = true) : Layered (l ++ [last] ++ [x]) := by
  rcases h with h | ⟨cs, p, spans, hl, hc, hp, hs⟩
  · have hk : x.att.kind = .div ∨ x.att.kind = .p := by
      rcases h last (by simp) with h | h <;> (rw [h] at hf; simp [Doc.fits] at hf)
      · exact .inl hf
      · exact hf
    rcases hk with hk | hk
    · left
      intro y hy
      rcases List.mem_append.1 hy with h' | h'
      · exact h y h'
      · rw [List.mem_singleton] at h'; rw [h']; exact .inr hk
    · exact .inr ⟨l ++ [last], x, [], rfl, h, hk, by simp⟩
  · have hlast : last.att.kind = .p ∨ last.att.kind = .span := by
      have h1 : (l ++ [last]).getLast? = some last := by simp
      rw [hl] at h1
      have hm : last ∈ p :: spans := by
        rw [List.getLast?_append] at h1
        cases h2 : (p :: spans).getLast? with
        | none => simp at h2
        | some z =>
          rw [h2] at h1
          simp only [Option.some_or, Option.some.injEq] at h1
          rw [← h1]
          exact List.mem_of_getLast? h2
      rcases List.mem_cons.1 hm with h | h
      · rw [h]; exact .inl hp
      · exact .inr (hs last h)
    have hk : x.att.kind = .span := by
      rcases hlast with h | h <;> (rw [h] at hf; simpa [Doc.fits] using hf)
    refine .inr ⟨cs, p, spans ++ [x], by rw [hl]; simp, hc, hp, ?_⟩
    intro y hy
    rcases List.mem_append.1 hy with h' | h'
    · exact hs y h'
    · rw [List.mem_singleton] at h'; rw [h']; exact hk

mutual
theorem layered_every : ∀ {n : Node PLab} {anc : List PLab}, Doc.shaped (forget n) = true →
    (∀ x kids, n = .elem x kids → Layered (anc ++ [x])) → Every (fun anc x => Layered (anc ++ [x])) anc n
  | .text _, _, _, _ => trivial
  | .br, _, _, _ => trivial
  | .elem x kids, anc, hs, h => by
    have hx := h x kids rfl
    rw [forget, Doc.shaped, Bool.and_eq_true] at hs
    exact ⟨hx, layered_everyL hs.2 hs.1 hx⟩
theorem layered_everyL : ∀ {ks : List (Node PLab)} {anc : List PLab} {x : PLab}, Doc.shapedL (forgetL ks) = true →
    (forgetL ks).all (Doc.fits x.att.kind) = true → Layered (anc ++ [x]) →
    EveryL (fun anc x => Layered (anc ++ [x])) (anc ++ [x]) ks
  | [], _, _, _, _, _ => trivial
  | k :: ks, anc, x, hs, hf, hx => by
    rw [forgetL, Doc.shapedL, Bool.and_eq_true] at hs
    rw [forgetL, List.all_cons, Bool.and_eq_true] at hf
    refine ⟨layered_every hs.1 ?_, layered_everyL hs.2 hf.2 hx⟩
    intro y ys he
    subst he
    exact hx.step hf.1
end

/-! ### C30 -/

/-- **C30**: the values that an element of a validated document specifies are those that its style references stand for. -/
theorem C30_document_specified (hd : Head) (body : Node Att) (hs : Doc.shaped body = true) (infos : List RInfo) (doc : Node PLab)
    (h : presentDoc hd body = .ok (infos, doc)) (anc : List PLab) (e : PLab) (kids : List (Node PLab))
    (hr : Reach doc anc (.elem e kids)) :
    (∀ x v, e.spec.inh x = some v ↔ GivesList hd.sheet (fun n => (hd.own n).inh x) e.att.style v) ∧
    (∀ x v, e.spec.simple x = some v ↔ GivesList hd.sheet (fun n => (hd.own n).simple x) e.att.style v) ∧
    (∀ v, e.spec.fs = some v ↔ GivesList hd.sheet (fun n => (hd.own n).fs) e.att.style v) ∧
    (∀ v, e.spec.lh = some v ↔ GivesList hd.sheet (fun n => (hd.own n).lh) e.att.style v) := by
  obtain ⟨_, c, hp⟩ := presentDoc_ok h
  have h2 := every_reach (present_recorded (anc := []) hp hs (by simp)) hr
  rw [Every] at h2
  obtain ⟨⟨h3, h4, _⟩, _⟩ := h2
  rw [refStyles] at h3
  cases hc : (collect hd.sheet [] e.att.style).1 with
  | error err => rw [hc] at h3; cases h3
  | ok l =>
    rw [hc] at h3
    injection h3 with h3
    rw [h4, ← h3]
    exact C30_specified_value Reached.init hc hd.own

/-- **C30**: the computed value of an inherited attribute of an element of a validated document is the first that is found going
from the element outwards to the body; if none of them specifies it, the regions in force on the way count, the
outermost first; if there is none either it is the initial value. An attribute that is not inherited is the element's own
or has the initial value. -/
theorem C30_document_value (hd : Head) (body : Node Att) (infos : List RInfo) (doc : Node PLab)
    (h : presentDoc hd body = .ok (infos, doc)) (anc : List PLab) (e : PLab) (kids : List (Node PLab))
    (hr : Reach doc anc (.elem e kids)) :
    (∀ x, (e.comp.inh x).1 = (firstOf ((anc ++ [e]).reverse.map (fun y => y.spec.inh x) ++
      (anc ++ [e]).map (fun y => y.region.bind (fun i => i.spec.inh x)))).or (initial x)) ∧
    ∀ x, e.comp.simple x = (e.spec.simple x).getD (initialSimple x) := by
  obtain ⟨hi, c, hp⟩ := presentDoc_ok h
  have h3 := every_reach (present_chain (anc := []) hp rfl) hr
  rw [Every] at h3
  have hknown : ∀ y ∈ anc ++ [e], ∀ i, y.region = some i → i.comp = regionStyle hd.geo i.spec := by
    intro y hy i hyi
    obtain ⟨anc', ks, hry⟩ := reach_around hr hy
    have hk := every_reach (present_known (anc := []) hp (by intro i hi; cases hi)) hry
    rw [Every] at hk
    exact presentRegions_comp hi i (hk.1 i hyi)
  constructor
  · intro x
    have h4 : chain hd.geo ((anc ++ [e]).map levelOf) = some e.comp := h3.1
    rw [List.map_append, List.map_cons, List.map_nil] at h4
    obtain ⟨c', hc', hv⟩ := C30_inherited_chain hd.geo (anc.map levelOf) (levelOf e) x
    rw [h4] at hc'
    cases hc'
    rw [hv]
    have e1 : (List.map levelOf anc ++ [levelOf e]) = (anc ++ [e]).map levelOf := by simp
    have e2 : (List.map (fun l => l.spec.inh x) ((anc ++ [e]).map levelOf).reverse) =
        (anc ++ [e]).reverse.map (fun y => y.spec.inh x) := by
      rw [← List.map_reverse, List.map_map]; rfl
    have e3 : (List.map (fun l => l.region.bind (·.real x)) ((anc ++ [e]).map levelOf)) =
        (anc ++ [e]).map (fun y => y.region.bind (fun i => i.spec.inh x)) := by
      rw [List.map_map]
      apply List.map_congr_left
      intro y hy
      show (levelOf y).region.bind _ = _
      simp only [levelOf]
      cases hyr : y.region with
      | none => rfl
      | some i =>
        simp only [Option.map_some, Option.bind_some]
        rw [hknown y hy i hyr, C30_region_value]
    rw [e1, e2, e3]
    cases x <;> rfl
  · intro x
    have h4 : chain hd.geo ((anc ++ [e]).map levelOf) = some e.comp := h3.1
    rw [List.map_append, List.map_cons, List.map_nil, chain_append] at h4
    injection h4 with h4
    rw [← h4, C30_not_inherited]
    cases x <;> rfl

theorem firstOf_replicate {α : Type} : ∀ (pre : List PLab) (f : PLab → Option α), (∀ y ∈ pre, f y = none) → firstOf (pre.map f) = none
  | [], _, _ => rfl
  | y :: ys, f, h => by
    rw [List.map_cons, h y (by simp), firstOf]
    exact firstOf_replicate ys f (fun z hz => h z (List.mem_cons_of_mem _ hz))

/-- **C30**: without nested region attributes only one region counts, the one the element is shown in. -/
theorem C30_document_one_region (hd : Head) (body : Node Att) (hu : unnested body = true) (infos : List RInfo) (doc : Node PLab)
    (h : presentDoc hd body = .ok (infos, doc)) (anc : List PLab) (e : PLab) (kids : List (Node PLab))
    (hr : Reach doc anc (.elem e kids)) (x : IAttr) :
    (e.comp.inh x).1 = (firstOf ((anc ++ [e]).reverse.map (fun y => y.spec.inh x) ++
      [e.region.bind (fun i => i.spec.inh x)])).or (initial x) := by
  rw [(C30_document_value hd body infos doc h anc e kids hr).1 x, firstOf_append, firstOf_append]
  congr 2
  obtain ⟨_, c, hp⟩ := presentDoc_ok h
  have h1 := every_reach (present_split (anc := []) hp (.inr ⟨hu, rfl⟩) ⟨[], [], rfl, by simp, by simp, .inl rfl⟩) hr
  rw [Every] at h1
  obtain ⟨pre, suf, hl, hpre, hsuf, _⟩ := h1.1
  rw [hl, List.map_append, firstOf_append, firstOf_replicate pre _ (fun y hy => by rw [hpre y hy]; rfl), Option.none_or]
  have hall : ∀ (l : List PLab) (o : Option Val), (∀ y ∈ l, y.region.bind (fun i => i.spec.inh x) = o) → l ≠ [] →
      firstOf (l.map (fun y => y.region.bind (fun i => i.spec.inh x))) = firstOf [o] := by
    intro l o
    induction l with
    | nil => intro _ h; exact absurd rfl h
    | cons y ys ih =>
      intro h _
      rw [List.map_cons, h y (by simp)]
      cases o with
      | some v => rfl
      | none =>
        simp only [firstOf]
        by_cases hys : ys = []
        · rw [hys]; rfl
        · exact ih (fun z hz => h z (List.mem_cons_of_mem _ hz)) hys
  by_cases hsn : suf = []
  · have : e.region = none := hpre e (by rw [hsn, List.append_nil] at hl; rw [← hl]; simp)
    rw [hsn, this]; rfl
  · exact hall suf _ (fun y hy => by rw [hsuf y hy]) hsn

/-! ### C31 -/

/-- **C31**: the font size of every p and span of a validated document is settled, in cells. -/
theorem C31_document_cells (hd : Head) (body : Node Att) (infos : List RInfo) (doc : Node PLab)
    (h : presentDoc hd body = .ok (infos, doc)) (anc : List PLab) (e : PLab) (kids : List (Node PLab))
    (hr : Reach doc anc (.elem e kids)) (hk : e.att.kind = .p ∨ e.att.kind = .span) : ∃ d, e.comp.fs = some (.cell d) := by
  obtain ⟨hi, c, hp⟩ := presentDoc_ok h
  have h3 := every_reach (present_chain (anc := []) hp rfl) hr
  rw [Every] at h3
  have hall : ∀ y ∈ anc ++ [e], (levelOf y).region = none ∨ ∃ s, (levelOf y).region = some (regionStyle hd.geo s) := by
    intro y hy
    obtain ⟨anc', ks, hry⟩ := reach_around hr hy
    have hkn := every_reach (present_known (anc := []) hp (by intro i hi; cases hi)) hry
    rw [Every] at hkn
    cases hyr : y.region with
    | none => left; rw [levelOf, hyr]; rfl
    | some i =>
      right
      refine ⟨i.spec, ?_⟩
      rw [levelOf, hyr]
      simp only [Option.map_some]
      rw [presentRegions_comp hi i (hkn.1 i hyr)]
  have hd' : (levelOf e).defer = false := by
    rcases hk with hk | hk <;> simp [levelOf, hk, defers]
  obtain ⟨s, hs⟩ : ∃ s, (levelOf e).region = Option.map (regionStyle hd.geo) s := by
    rcases hall e (by simp) with h | ⟨s, h⟩
    · exact ⟨none, by rw [h]; rfl⟩
    · exact ⟨some s, by rw [h]; rfl⟩
  obtain ⟨c', d, hc', hf⟩ := C31_always_cells hd.geo (anc.map levelOf) (levelOf e) hd' s hs (by
    intro m hm
    obtain ⟨y, hy, rfl⟩ := List.mem_map.1 hm
    exact hall y (List.mem_append_left _ hy))
  have h4 : chain hd.geo ((anc ++ [e]).map levelOf) = some e.comp := h3.1
  rw [List.map_append, List.map_cons, List.map_nil, hc'] at h4
  cases h4
  exact ⟨d, hf⟩

/-- A percentage. -/
def IsPct (f : Option FS) : Prop := ∃ d, f = some (.pct d)

/-- **C31** (partial): the computed font size of a p or span of a validated document. Starting from one cell, the region's font size and
then that of every element from the body down to the element are applied.

Missing: documents with nested region attributes, and the case of `C31_false_deferred`: the element is in a region, the p has a
percentage, and an element outside the region has one too. -/
theorem C31_document_font_size_partial (hd : Head) (body : Node Att) (hs : Doc.shaped body = true) (hu : unnested body = true)
    (hb : ∃ a ks, body = .elem a ks ∧ a.kind = .body) (infos : List RInfo) (doc : Node PLab)
    (h : presentDoc hd body = .ok (infos, doc)) (anc : List PLab) (e : PLab) (kids : List (Node PLab))
    (hr : Reach doc anc (.elem e kids)) (hk : e.att.kind = .p ∨ e.att.kind = .span)
    (hex : e.region = none ∨ (∀ y ∈ anc ++ [e], y.att.kind = .p → ¬ IsPct y.spec.fs) ∨ ∀ y ∈ anc, y.region = none → ¬ IsPct y.spec.fs) :
    ∃ d, e.comp.fs = some (.cell d) ∧
      d.axes = (e.region.toList.map (·.spec.fs) ++ (anc ++ [e]).map (·.spec.fs)).foldl (applySize hd.geo) (1, 1) := by
  obtain ⟨hi, c, hp⟩ := presentDoc_ok h
  have hforget := present_forget hp
  have h3 := every_reach (present_chain (anc := []) hp rfl) hr
  have h1 := every_reach (present_split (anc := []) hp (.inr ⟨hu, rfl⟩) ⟨[], [], rfl, by simp, by simp, .inl rfl⟩) hr
  have hkn := every_reach (present_known (anc := []) hp (by intro i hi; cases hi)) hr
  have hlay := every_reach (layered_every (anc := []) (n := doc) (by rw [hforget]; exact hs) (by
    intro x ks he
    obtain ⟨a, ks', hbody, hkb⟩ := hb
    have he' : doc = .elem x ks := he
    have h5 : forget doc = body := hforget
    rw [he', hbody, forget] at h5
    cases h5
    left
    intro y hy
    simp only [List.nil_append, List.mem_singleton] at hy
    rw [hy]; exact .inl hkb)) hr
  rw [Every] at h1 h3 hkn hlay
  obtain ⟨pre, suf, hl, hpre, hsuf, hz⟩ := h1.1
  rcases hlay.1 with hc | ⟨cs, p, spans, hcs, hcont, hpk, hspans⟩
  · exfalso
    rcases hc e (by simp) with h | h <;> rcases hk with hk | hk <;> rw [h] at hk <;> cases hk
  have hregion : (e.region.map (·.spec)).map (regionStyle hd.geo) = e.region.map (·.comp) := by
    cases her : e.region with
    | none => rfl
    | some i => simp only [Option.map_some]; rw [presentRegions_comp hi i (hkn.1 i her)]
  -- the containers outside and inside the region
  obtain ⟨cs1, cs2, hcs12, hr1, hr2, hr3⟩ : ∃ cs1 cs2, cs = cs1 ++ cs2 ∧ (∀ y ∈ cs1, y.region = none) ∧
      (∀ y ∈ cs2, y.region = e.region) ∧ ∀ y ∈ p :: spans, y.region = e.region := by
    by_cases her : e.region = none
    · have hall : ∀ y ∈ anc ++ [e], y.region = none := by
        intro y hy
        rw [hl] at hy
        rcases List.mem_append.1 hy with h | h
        · exact hpre y h
        · rw [hsuf y h, her]
      rw [hcs] at hall
      exact ⟨cs, [], by simp, fun y hy => hall y (List.mem_append_left _ hy), by simp,
        fun y hy => by rw [her]; exact hall y (List.mem_append_right _ hy)⟩
    · obtain ⟨z, zs, hzs, hzk⟩ := hz.resolve_left her
      have heq : pre ++ suf = cs ++ p :: spans := by rw [← hl, hcs]
      rcases List.append_eq_append_iff.1 heq with ⟨a', h1, h2⟩ | ⟨c', h1, h2⟩
      · refine ⟨pre, a', h1, hpre, ?_, ?_⟩
        · intro y hy; exact hsuf y (by rw [h2]; exact List.mem_append_left _ hy)
        · intro y hy; exact hsuf y (by rw [h2]; exact List.mem_append_right _ hy)
      · cases c' with
        | nil =>
          rw [List.append_nil] at h1
          rw [List.nil_append] at h2
          exact ⟨cs, [], by simp, by rw [← h1]; exact hpre, by simp, by rw [h2]; exact hsuf⟩
        | cons q c'' =>
          exfalso
          rw [List.cons_append, List.cons.injEq] at h2
          have := hspans z (by rw [h2.2, hzs]; simp)
          rw [this] at hzk
          exact absurd hzk (by decide)
  have hmem : ∀ y ∈ cs1, y ∈ anc := by
    intro y hy
    have hy' : y ∈ anc ++ [e] := by rw [hcs, hcs12]; simp [hy]
    rcases List.mem_append.1 hy' with h | h
    · exact h
    · rw [List.mem_singleton] at h
      exfalso
      have := hcont y (by rw [hcs12]; simp [hy])
      rw [h] at this
      rcases this with h | h <;> rcases hk with hk | hk <;> rw [h] at hk <;> cases hk
  have hdef : ∀ y ∈ cs, (levelOf y).defer = true := by
    intro y hy
    rcases hcont y hy with h | h <;> simp [levelOf, h, defers]
  have hlev : (anc ++ [e]).map levelOf = cs1.map levelOf ++ cs2.map levelOf ++ levelOf p :: spans.map levelOf := by
    rw [hcs, hcs12]; simp
  obtain ⟨c', d, hc', hf, hax⟩ := C31_font_size_is_product_partial hd.geo (cs1.map levelOf) (cs2.map levelOf) (spans.map levelOf)
    (levelOf p) (e.region.map (·.spec)) (by
      intro l hl
      obtain ⟨y, hy, rfl⟩ := List.mem_map.1 hl
      exact ⟨hdef y (by rw [hcs12]; simp [hy]), by rw [levelOf, hr1 y hy]; rfl⟩) (by
      intro l hl
      obtain ⟨y, hy, rfl⟩ := List.mem_map.1 hl
      exact ⟨hdef y (by rw [hcs12]; simp [hy]), by rw [hregion, levelOf, hr2 y hy]⟩) (by
      intro l hl
      rw [← List.map_cons] at hl
      obtain ⟨y, hy, rfl⟩ := List.mem_map.1 hl
      refine ⟨?_, by rw [hregion, levelOf, hr3 y hy]⟩
      rcases List.mem_cons.1 hy with h | h
      · simp [levelOf, h, hpk, defers]
      · simp [levelOf, hspans y h, defers]) (by
      rcases hex with h | h | h
      · left; rw [h]; rfl
      · right; left
        intro d hd'
        exact h p (by rw [hcs]; simp) hpk ⟨d, hd'⟩
      · right; right
        intro l hl d hd'
        obtain ⟨y, hy, rfl⟩ := List.mem_map.1 hl
        exact h y (hmem y hy) (hr1 y hy) ⟨d, hd'⟩)
  rw [← hlev] at hc' hax
  have h4 : chain hd.geo ((anc ++ [e]).map levelOf) = some e.comp := h3.1
  rw [h4] at hc'
  cases hc'
  refine ⟨d, hf, ?_⟩
  rw [hax, specSize_fold]
  congr 1
  rw [List.map_append, List.map_map]
  congr 1
  · cases e.region <;> rfl
  · rw [List.map_map]; rfl

/-! ### A document -/

/-- Styles: `big` is two cells, `half` 50%, `wide` 25% by 50%; the region uses `big`. -/
def exSizes : Head where
  sheet := [("big".toList, []), ("half".toList, []), ("wide".toList, ["half".toList])]
  own := fun n => if n = "big".toList then { fs := some (.cell ⟨none, 2⟩) }
    else if n = "half".toList then { fs := some (.pct ⟨none, 50⟩), inh := fun x => if x = .color then some "red".toList else none }
    else { fs := some (.pct ⟨some 25, 50⟩) }
  regions := [⟨"r".toList, ["big".toList], none⟩]
  geo := ⟨1, 1⟩

def exSized : Node Att := .elem { kind := .body, style := ["half".toList] } [.elem { kind := .div, region := some "r".toList } [
  .elem { kind := .p } [.elem { kind := .span, style := ["wide".toList] } [.text "x".toList]]]]

/-- The hypotheses are met; the span is at 25% by 50% of 50% of two cells, takes its colour from the style that its own refers
to, and its alignment is the initial value. -/
example : Doc.shaped exSized = true ∧ unnested exSized = true ∧
    (presentDoc exSizes exSized).toOption.map (fun r => (labels r.2).map (fun x => (x.comp.fs, (x.comp.inh .color).1, (x.comp.inh .textAlign).1))) =
      some [(some (.pct ⟨none, 50⟩), some "red".toList, some "start".toList), (some (.cell ⟨none, 1⟩), some "red".toList, some "start".toList),
        (some (.cell ⟨none, 1⟩), some "red".toList, some "start".toList),
        (some (.cell ⟨some (1/4), 1/2⟩), some "red".toList, some "start".toList)] := by decide +kernel

end Verif.Style
