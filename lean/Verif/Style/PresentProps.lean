import Verif.Style.Present
import Verif.Doc.SegmentSpec

/-
C32: what the style stack and the current region do to later siblings, and what the computed style and
the region of an element depend on.
-/
namespace Verif.Style

open Verif.Doc (Node Att Kind Reach)

/-! ### Specification -/

mutual
/-- The document again, without the results of validation. -/
def forget : Node PLab → Node Att
  | .text s => .text s
  | .br => .br
  | .elem x kids => .elem x.att (forgetL kids)
def forgetL : List (Node PLab) → List (Node Att)
  | [] => []
  | k :: ks => forget k :: forgetL ks
end

/-- The region attribute of an element, if its type has one. -/
def ownRegion (a : Att) : Option Name := if Doc.hasRegion a.kind then a.region else none

mutual
/-- No element has a region attribute. -/
def noRegions : Node Att → Bool
  | .elem a kids => (ownRegion a).isNone && noRegionsL kids
  | _ => true
def noRegionsL : List (Node Att) → Bool
  | [] => true
  | k :: ks => noRegions k && noRegionsL ks
end

mutual
/-- No element with a region attribute lies inside another one. -/
def unnested : Node Att → Bool
  | .elem a kids => if (ownRegion a).isSome then noRegionsL kids else unnestedL kids
  | _ => true
def unnestedL : List (Node Att) → Bool
  | [] => true
  | k :: ks => unnested k && unnestedL ks
end

mutual
/-- No div. -/
def noDivs : Node Att → Bool
  | .elem a kids => decide (a.kind ≠ .div) && noDivsL kids
  | _ => true
def noDivsL : List (Node Att) → Bool
  | [] => true
  | k :: ks => noDivs k && noDivsL ks
end

/-- The region of the innermost of the given elements (outermost first) that has one. -/
def nearest : List Att → Option Name
  | [] => none
  | a :: as => (nearest as).or (ownRegion a)

/-- An element as style computation sees it. -/
def levelOf (x : PLab) : Level := ⟨x.spec, x.region.map (·.comp), defers x.att.kind⟩

/-! ### Lemmas -/

mutual
/-- `P` holds of every element, given the elements around it. -/
def Every (P : List PLab → PLab → Prop) (anc : List PLab) : Node PLab → Prop
  | .text _ => True
  | .br => True
  | .elem x kids => P anc x ∧ EveryL P (anc ++ [x]) kids
def EveryL (P : List PLab → PLab → Prop) (anc : List PLab) : List (Node PLab) → Prop
  | [] => True
  | k :: ks => Every P anc k ∧ EveryL P anc ks
end

theorem everyL_mem {P : List PLab → PLab → Prop} {anc : List PLab} : ∀ {ks : List (Node PLab)}, EveryL P anc ks → ∀ k ∈ ks, Every P anc k
  | [], _, k, hk => by simp at hk
  | q :: qs, h, k, hk => by
    rw [EveryL] at h
    rcases List.mem_cons.1 hk with e | e
    · subst e; exact h.1
    · exact everyL_mem h.2 k e

theorem every_reach {P : List PLab → PLab → Prop} {root : Node PLab} (h : Every P [] root) {anc : List PLab} {n : Node PLab}
    (hr : Reach root anc n) : Every P anc n := by
  induction hr with
  | here => exact h
  | step _ hk ih =>
    rw [Every] at ih
    exact everyL_mem ih.2 _ hk

theorem present_elem {hd : Head} {infos : List RInfo} {c : Ctx} {parent : Option Computed} {a : Att} {kids : List (Node Att)}
    {r : Ctx × Node PLab} (h : present hd infos c parent (.elem a kids) = .ok r) :
    ∃ rg refd q, setRegion infos a c.region = .ok rg ∧ refStyles hd a.style = .ok refd ∧
      presentL hd infos ⟨c.stack ++ [refd], rg⟩ (some (label hd a c.stack rg parent refd).comp) kids = .ok q ∧
      r = (leave a q.1, .elem (label hd a c.stack rg parent refd) q.2) := by
  rw [present] at h
  cases h1 : setRegion infos a c.region with
  | error e => rw [h1] at h; cases h
  | ok rg =>
    cases h2 : refStyles hd a.style with
    | error e => rw [h1, h2] at h; cases h
    | ok refd =>
      cases h3 : presentL hd infos ⟨c.stack ++ [refd], rg⟩ (some (label hd a c.stack rg parent refd).comp) kids with
      | error e => rw [h1, h2] at h; simp only [bind, Except.bind] at h; rw [h3] at h; cases h
      | ok q =>
        refine ⟨rg, refd, q, rfl, rfl, h3, ?_⟩
        rw [h1, h2] at h
        simp only [bind, Except.bind] at h
        rw [h3] at h
        cases h
        rfl

theorem presentL_cons {hd : Head} {infos : List RInfo} {c : Ctx} {parent : Option Computed} {k : Node Att} {ks : List (Node Att)}
    {r : Ctx × List (Node PLab)} (h : presentL hd infos c parent (k :: ks) = .ok r) :
    ∃ q qs, present hd infos c parent k = .ok q ∧ presentL hd infos q.1 parent ks = .ok qs ∧ r = (qs.1, q.2 :: qs.2) := by
  rw [presentL] at h
  cases h1 : present hd infos c parent k with
  | error e => rw [h1] at h; cases h
  | ok q =>
    cases h2 : presentL hd infos q.1 parent ks with
    | error e => rw [h1] at h; simp only [bind, Except.bind] at h; rw [h2] at h; cases h
    | ok qs =>
      refine ⟨q, qs, rfl, h2, ?_⟩
      rw [h1] at h
      simp only [bind, Except.bind] at h
      rw [h2] at h
      cases h
      rfl

/-- An invariant of the pass: `Q` relates the dataset before and after, `P` holds of the elements. -/
theorem presentDoc_ok {hd : Head} {body : Node Att} {infos : List RInfo} {n : Node PLab} (h : presentDoc hd body = .ok (infos, n)) :
    presentRegions hd hd.regions = .ok infos ∧ ∃ c, present hd infos ⟨[], none⟩ none body = .ok (c, n) := by
  rw [presentDoc] at h
  cases h1 : presentRegions hd hd.regions with
  | error e => rw [h1] at h; cases h
  | ok i =>
    cases h2 : present hd i ⟨[], none⟩ none body with
    | error e => rw [h1] at h; simp only [bind, Except.bind] at h; rw [h2] at h; cases h
    | ok r =>
      rw [h1] at h
      simp only [bind, Except.bind] at h
      rw [h2] at h
      cases h
      exact ⟨rfl, r.1, h2⟩

mutual
theorem present_forget {hd : Head} {infos : List RInfo} : ∀ {n : Node Att} {c : Ctx} {parent : Option Computed} {r : Ctx × Node PLab},
    present hd infos c parent n = .ok r → forget r.2 = n
  | .text s, c, parent, r, h => by rw [present] at h; cases h; rfl
  | .br, c, parent, r, h => by rw [present] at h; cases h; rfl
  | .elem a kids, c, parent, r, h => by
    obtain ⟨rg, refd, q, _, _, h3, hr⟩ := present_elem h
    subst hr
    show Node.elem a (forgetL q.2) = _
    rw [presentL_forget h3]
theorem presentL_forget {hd : Head} {infos : List RInfo} : ∀ {ks : List (Node Att)} {c : Ctx} {parent : Option Computed}
    {r : Ctx × List (Node PLab)}, presentL hd infos c parent ks = .ok r → forgetL r.2 = ks
  | [], c, parent, r, h => by rw [presentL] at h; cases h; rfl
  | k :: ks, c, parent, r, h => by
    obtain ⟨q, qs, h1, h2, hr⟩ := presentL_cons h
    subst hr
    show forget q.2 :: forgetL qs.2 = _
    rw [present_forget h1, presentL_forget h2]
end

/-! ### The style stack -/

mutual
theorem present_stack {hd : Head} {infos : List RInfo} : ∀ {n : Node Att} {c : Ctx} {parent : Option Computed} {r : Ctx × Node PLab},
    present hd infos c parent n = .ok r → noDivs n = true → r.1.stack = c.stack
  | .text s, c, parent, r, h, _ => by rw [present] at h; cases h; rfl
  | .br, c, parent, r, h, _ => by rw [present] at h; cases h; rfl
  | .elem a kids, c, parent, r, h, hn => by
    obtain ⟨rg, refd, q, _, _, h3, hr⟩ := present_elem h
    subst hr
    rw [noDivs, Bool.and_eq_true, decide_eq_true_eq] at hn
    have ih := presentL_stack h3 hn.2
    simp only [leave]
    split
    · rename_i hk; exact absurd hk hn.1
    · rw [ih]; simp
theorem presentL_stack {hd : Head} {infos : List RInfo} : ∀ {ks : List (Node Att)} {c : Ctx} {parent : Option Computed}
    {r : Ctx × List (Node PLab)}, presentL hd infos c parent ks = .ok r → noDivsL ks = true → r.1.stack = c.stack
  | [], c, parent, r, h, _ => by rw [presentL] at h; cases h; rfl
  | k :: ks, c, parent, r, h, hn => by
    obtain ⟨q, qs, h1, h2, hr⟩ := presentL_cons h
    subst hr
    rw [noDivsL, Bool.and_eq_true] at hn
    show qs.1.stack = _
    rw [presentL_stack h2 hn.2, present_stack h1 hn.1]
end

mutual
/-- What stays on the style stack: the entries of the divs, in document order. -/
def leak (hd : Head) : Node Att → List (List Name)
  | .elem a kids => match a.kind with
    | .div => ((refStyles hd a.style).toOption.getD []) :: leakL hd kids
    | _ => leakL hd kids
  | _ => []
def leakL (hd : Head) : List (Node Att) → List (List Name)
  | [] => []
  | k :: ks => leak hd k ++ leakL hd ks
end

mutual
theorem present_leak {hd : Head} {infos : List RInfo} : ∀ {n : Node Att} {c : Ctx} {parent : Option Computed} {r : Ctx × Node PLab},
    present hd infos c parent n = .ok r → Doc.shaped n = true →
    (∀ a kids, n = .elem a kids → a.kind ≠ .body) → r.1.stack = c.stack ++ leak hd n
  | .text s, c, parent, r, h, _, _ => by rw [present] at h; cases h; simp [leak]
  | .br, c, parent, r, h, _, _ => by rw [present] at h; cases h; simp [leak]
  | .elem a kids, c, parent, r, h, hs, hb => by
    obtain ⟨rg, refd, q, _, h2, h3, hr⟩ := present_elem h
    subst hr
    have hb := hb a kids rfl
    rw [Doc.shaped, Bool.and_eq_true] at hs
    have hkid : ∀ k ∈ kids, ∀ b bs, k = .elem b bs → b.kind ≠ .body := by
      intro k hk b bs hkb hbody
      have := List.all_eq_true.1 hs.1 k hk
      subst hkb
      simp only [Doc.fits] at this
      split at this
      · exact hb ‹_›
      · rw [hbody] at this; simp at this
      · rw [hbody] at this; simp at this
    simp only [leave]
    cases hk : a.kind with
    | body => exact absurd hk hb
    | div =>
      show q.1.stack = _
      rw [presentL_leak h3 hs.2 hkid, leak, hk, h2]
      simp [Except.toOption]
    | p =>
      show q.1.stack.dropLast = _
      have hnd : noDivsL kids = true := leaf_noDivsL hs.2 (by
        intro k hk'
        have := List.all_eq_true.1 hs.1 k hk'
        rwa [hk] at this) (Or.inl rfl)
      rw [presentL_stack h3 hnd, leak, hk, noDivs_leakL hnd]
      simp
    | span =>
      show q.1.stack.dropLast = _
      have hnd : noDivsL kids = true := leaf_noDivsL hs.2 (by
        intro k hk'
        have := List.all_eq_true.1 hs.1 k hk'
        rwa [hk] at this) (Or.inr rfl)
      rw [presentL_stack h3 hnd, leak, hk, noDivs_leakL hnd]
      simp
theorem presentL_leak {hd : Head} {infos : List RInfo} : ∀ {ks : List (Node Att)} {c : Ctx} {parent : Option Computed}
    {r : Ctx × List (Node PLab)}, presentL hd infos c parent ks = .ok r → Doc.shapedL ks = true →
    (∀ k ∈ ks, ∀ a kids, k = .elem a kids → a.kind ≠ .body) → r.1.stack = c.stack ++ leakL hd ks
  | [], c, parent, r, h, _, _ => by rw [presentL] at h; cases h; simp [leakL]
  | k :: ks, c, parent, r, h, hs, hb => by
    obtain ⟨q, qs, h1, h2, hr⟩ := presentL_cons h
    subst hr
    rw [Doc.shapedL, Bool.and_eq_true] at hs
    show qs.1.stack = _
    rw [presentL_leak h2 hs.2 (fun k hk => hb k (List.mem_cons_of_mem _ hk)), present_leak h1 hs.1 (hb k (by simp)), leakL]
    simp
theorem leaf_noDivsL : ∀ {ks : List (Node Att)} {kd : Kind}, Doc.shapedL ks = true → (∀ k ∈ ks, Doc.fits kd k = true) →
    kd = .p ∨ kd = .span → noDivsL ks = true
  | [], _, _, _, _ => rfl
  | k :: ks, kd, hs, hf, hk => by
    rw [Doc.shapedL, Bool.and_eq_true] at hs
    rw [noDivsL, Bool.and_eq_true]
    exact ⟨leaf_noDivs hs.1 (hf k (by simp)) hk, leaf_noDivsL hs.2 (fun k hk => hf k (List.mem_cons_of_mem _ hk)) hk⟩
theorem leaf_noDivs : ∀ {n : Node Att} {kd : Kind}, Doc.shaped n = true → Doc.fits kd n = true → kd = .p ∨ kd = .span →
    noDivs n = true
  | .text _, _, _, _, _ => rfl
  | .br, _, _, _, _ => rfl
  | .elem a kids, kd, hs, hf, hk => by
    rw [Doc.shaped, Bool.and_eq_true] at hs
    have ha : a.kind = .span := by
      rcases hk with h | h <;> (rw [h] at hf; simpa [Doc.fits] using hf)
    rw [noDivs, Bool.and_eq_true]
    refine ⟨by simp [ha], leaf_noDivsL hs.2 (fun k hk => ?_) (Or.inr rfl)⟩
    have := List.all_eq_true.1 hs.1 k hk
    rwa [ha] at this
theorem noDivs_leakL {hd : Head} : ∀ {ks : List (Node Att)}, noDivsL ks = true → leakL hd ks = []
  | [], _ => rfl
  | k :: ks, h => by
    rw [noDivsL, Bool.and_eq_true] at h
    rw [leakL, noDivs_leak h.1, noDivs_leakL h.2]; rfl
theorem noDivs_leak {hd : Head} : ∀ {n : Node Att}, noDivs n = true → leak hd n = []
  | .text _, _ => rfl
  | .br, _ => rfl
  | .elem a kids, h => by
    rw [noDivs, Bool.and_eq_true, decide_eq_true_eq] at h
    rw [leak]
    split
    · exact absurd ‹_› h.1
    · exact noDivs_leakL h.2
end

/-! ### The current region -/

theorem setRegion_ok {infos : List RInfo} {a : Att} {cur rg : Option RInfo} (h : setRegion infos a cur = .ok rg) :
    (ownRegion a = none → rg = cur) ∧ ∀ r, ownRegion a = some r → ∃ i ∈ infos, rg = some i ∧ i.id = r := by
  simp only [setRegion] at h
  constructor
  · intro hn
    rw [ownRegion] at hn
    rw [hn] at h
    simpa using h.symm
  · intro r hr
    rw [ownRegion] at hr
    rw [hr] at h
    simp only at h
    cases hf : infos.find? (fun i => decide (i.id = r)) with
    | none => rw [hf] at h; simp at h
    | some i =>
      rw [hf] at h
      refine ⟨i, List.mem_of_find?_eq_some hf, by simpa using h.symm, ?_⟩
      have := List.find?_some hf
      simpa using this

theorem leave_region (a : Att) (c : Ctx) : (leave a c).region = if (ownRegion a).isSome then none else c.region := by
  simp only [leave, ownRegion]
  by_cases hk : Doc.hasRegion a.kind = true
  · simp [hk]
  · simp [hk]

mutual
theorem present_region {hd : Head} {infos : List RInfo} : ∀ {n : Node Att} {c : Ctx} {parent : Option Computed} {r : Ctx × Node PLab},
    present hd infos c parent n = .ok r → r.1.region = if noRegions n then c.region else none
  | .text s, c, parent, r, h => by rw [present] at h; cases h; rfl
  | .br, c, parent, r, h => by rw [present] at h; cases h; rfl
  | .elem a kids, c, parent, r, h => by
    obtain ⟨rg, refd, q, h1, _, h3, hr⟩ := present_elem h
    subst hr
    show (leave a q.1).region = _
    have ih := presentL_region h3
    rw [leave_region, ih, noRegions]
    cases ho : ownRegion a with
    | some r => simp
    | none => rw [(setRegion_ok h1).1 ho]; simp
theorem presentL_region {hd : Head} {infos : List RInfo} : ∀ {ks : List (Node Att)} {c : Ctx} {parent : Option Computed}
    {r : Ctx × List (Node PLab)}, presentL hd infos c parent ks = .ok r → r.1.region = if noRegionsL ks then c.region else none
  | [], c, parent, r, h => by rw [presentL] at h; cases h; rfl
  | k :: ks, c, parent, r, h => by
    obtain ⟨q, qs, h1, h2, hr⟩ := presentL_cons h
    subst hr
    show qs.1.region = _
    rw [presentL_region h2, present_region h1, noRegionsL]
    cases noRegions k <;> cases noRegionsL ks <;> rfl
end

theorem nearest_append : ∀ (as : List Att) (a : Att), nearest (as ++ [a]) = (ownRegion a).or (nearest as)
  | [], a => by simp [nearest]
  | b :: bs, a => by
    simp only [List.cons_append, nearest, nearest_append bs a]
    cases ownRegion a <;> simp

/-- The region in force is that of the innermost element around that has one. -/
def RegionIsNearest (anc : List PLab) (x : PLab) : Prop :=
  x.region.map (·.id) = nearest ((anc ++ [x]).map (·.att))

mutual
theorem present_nearest_free {hd : Head} {infos : List RInfo} : ∀ {n : Node Att} {c : Ctx} {parent : Option Computed} {r : Ctx × Node PLab}
    {anc : List PLab}, present hd infos c parent n = .ok r → noRegions n = true → c.region.map (·.id) = nearest (anc.map (·.att)) →
    Every RegionIsNearest anc r.2
  | .text s, c, parent, r, anc, h, _, _ => by rw [present] at h; cases h; trivial
  | .br, c, parent, r, anc, h, _, _ => by rw [present] at h; cases h; trivial
  | .elem a kids, c, parent, r, anc, h, hn, hc => by
    obtain ⟨rg, refd, q, h1, _, h3, hr⟩ := present_elem h
    subst hr
    rw [noRegions, Bool.and_eq_true, Option.isNone_iff_eq_none] at hn
    have hrg := (setRegion_ok h1).1 hn.1
    have hx : RegionIsNearest anc (label hd a c.stack rg parent refd) := by
      show rg.map (·.id) = _
      rw [List.map_append, List.map_cons, List.map_nil, nearest_append, hrg, hc]
      show _ = (ownRegion a).or _
      rw [hn.1]; rfl
    exact ⟨hx, presentL_nearest_free h3 hn.2 hx⟩
theorem presentL_nearest_free {hd : Head} {infos : List RInfo} : ∀ {ks : List (Node Att)} {c : Ctx} {parent : Option Computed}
    {r : Ctx × List (Node PLab)} {anc : List PLab}, presentL hd infos c parent ks = .ok r → noRegionsL ks = true →
    c.region.map (·.id) = nearest (anc.map (·.att)) → EveryL RegionIsNearest anc r.2
  | [], c, parent, r, anc, h, _, _ => by rw [presentL] at h; cases h; trivial
  | k :: ks, c, parent, r, anc, h, hn, hc => by
    obtain ⟨q, qs, h1, h2, hr⟩ := presentL_cons h
    subst hr
    rw [noRegionsL, Bool.and_eq_true] at hn
    refine ⟨present_nearest_free h1 hn.1 hc, presentL_nearest_free h2 hn.2 ?_⟩
    rw [present_region h1, hn.1]
    exact hc
end

mutual
theorem present_nearest {hd : Head} {infos : List RInfo} : ∀ {n : Node Att} {c : Ctx} {parent : Option Computed} {r : Ctx × Node PLab}
    {anc : List PLab}, present hd infos c parent n = .ok r → unnested n = true → c.region = none → nearest (anc.map (·.att)) = none →
    Every RegionIsNearest anc r.2
  | .text s, c, parent, r, anc, h, _, _, _ => by rw [present] at h; cases h; trivial
  | .br, c, parent, r, anc, h, _, _, _ => by rw [present] at h; cases h; trivial
  | .elem a kids, c, parent, r, anc, h, hn, hc, ha => by
    obtain ⟨rg, refd, q, h1, _, h3, hr⟩ := present_elem h
    subst hr
    rw [unnested] at hn
    cases ho : ownRegion a with
    | none =>
      rw [ho] at hn
      have hrg := (setRegion_ok h1).1 ho
      have hx : nearest ((anc ++ [label hd a c.stack rg parent refd]).map (·.att)) = none := by
        rw [List.map_append, List.map_cons, List.map_nil, nearest_append, ha]
        show (ownRegion a).or _ = _
        rw [ho]; rfl
      refine ⟨?_, presentL_nearest h3 hn (by rw [hrg, hc]) hx⟩
      show rg.map (·.id) = _
      rw [hx, hrg, hc]; rfl
    | some rn =>
      rw [ho] at hn
      obtain ⟨i, _, hi, hid⟩ := (setRegion_ok h1).2 rn ho
      have hx : RegionIsNearest anc (label hd a c.stack rg parent refd) := by
        show rg.map (·.id) = _
        rw [List.map_append, List.map_cons, List.map_nil, nearest_append, hi]
        show _ = (ownRegion a).or _
        rw [ho]
        simp [hid]
      exact ⟨hx, presentL_nearest_free h3 hn hx⟩
theorem presentL_nearest {hd : Head} {infos : List RInfo} : ∀ {ks : List (Node Att)} {c : Ctx} {parent : Option Computed}
    {r : Ctx × List (Node PLab)} {anc : List PLab}, presentL hd infos c parent ks = .ok r → unnestedL ks = true →
    c.region = none → nearest (anc.map (·.att)) = none → EveryL RegionIsNearest anc r.2
  | [], c, parent, r, anc, h, _, _, _ => by rw [presentL] at h; cases h; trivial
  | k :: ks, c, parent, r, anc, h, hn, hc, ha => by
    obtain ⟨q, qs, h1, h2, hr⟩ := presentL_cons h
    subst hr
    rw [unnestedL, Bool.and_eq_true] at hn
    refine ⟨present_nearest h1 hn.1 hc ha, presentL_nearest h2 hn.2 ?_ ha⟩
    rw [present_region h1, hc]
    split <;> rfl
end

/-! ### Computed styles -/

/-- The computed style is that of the chain of elements around. -/
def FromChain (g : Geometry) (anc : List PLab) (x : PLab) : Prop :=
  chain g ((anc ++ [x]).map levelOf) = some x.comp

mutual
theorem present_chain {hd : Head} {infos : List RInfo} : ∀ {n : Node Att} {c : Ctx} {parent : Option Computed} {r : Ctx × Node PLab}
    {anc : List PLab}, present hd infos c parent n = .ok r → parent = chain hd.geo (anc.map levelOf) →
    Every (FromChain hd.geo) anc r.2
  | .text s, c, parent, r, anc, h, _ => by rw [present] at h; cases h; trivial
  | .br, c, parent, r, anc, h, _ => by rw [present] at h; cases h; trivial
  | .elem a kids, c, parent, r, anc, h, hp => by
    obtain ⟨rg, refd, q, h1, _, h3, hr⟩ := present_elem h
    subst hr
    have hx : FromChain hd.geo anc (label hd a c.stack rg parent refd) := by
      rw [FromChain, List.map_append, List.map_cons, List.map_nil, chain_append, ← hp]
      rfl
    exact ⟨hx, presentL_chain h3 hx.symm⟩
theorem presentL_chain {hd : Head} {infos : List RInfo} : ∀ {ks : List (Node Att)} {c : Ctx} {parent : Option Computed}
    {r : Ctx × List (Node PLab)} {anc : List PLab}, presentL hd infos c parent ks = .ok r →
    parent = chain hd.geo (anc.map levelOf) → EveryL (FromChain hd.geo) anc r.2
  | [], c, parent, r, anc, h, _ => by rw [presentL] at h; cases h; trivial
  | k :: ks, c, parent, r, anc, h, hp => by
    obtain ⟨q, qs, h1, h2, hr⟩ := presentL_cons h
    subst hr
    exact ⟨present_chain h1 hp, presentL_chain h2 hp⟩
end

/-! ### What an element is labelled with -/

theorem mem_inherited {refd : List Name} : ∀ {l acc : List Name} {x : Name},
    x ∈ l.foldl (fun acc x => if x ∈ refd ∨ x ∈ acc then acc else acc ++ [x]) acc ↔ x ∈ acc ∨ (x ∈ l ∧ x ∉ refd)
  | [], acc, x => by simp
  | y :: ys, acc, x => by
    rw [List.foldl_cons, mem_inherited (l := ys)]
    by_cases hy : y ∈ refd ∨ y ∈ acc
    · rw [if_pos hy, List.mem_cons]
      constructor
      · rintro (h | ⟨h, h'⟩)
        · exact Or.inl h
        · exact Or.inr ⟨Or.inr h, h'⟩
      · rintro (h | ⟨h | h, h'⟩)
        · exact Or.inl h
        · subst h
          rcases hy with hy | hy
          · exact absurd hy h'
          · exact Or.inl hy
        · exact Or.inr ⟨h, h'⟩
    · rw [if_neg hy, List.mem_append, List.mem_singleton, List.mem_cons]
      constructor
      · rintro ((h | h) | ⟨h, h'⟩)
        · exact Or.inl h
        · subst h; exact Or.inr ⟨Or.inl rfl, fun h => hy (Or.inl h)⟩
        · exact Or.inr ⟨Or.inr h, h'⟩
      · rintro (h | ⟨h | h, h'⟩)
        · exact Or.inl (Or.inl h)
        · exact Or.inl (Or.inr h)
        · exact Or.inr ⟨h, h'⟩

theorem mem_validated {refd : List Name} {stack : List (List Name)} {region : Option RInfo} {x : Name} :
    x ∈ validatedStyles refd stack region ↔
      x ∈ refd ∨ (∃ l ∈ stack, x ∈ l) ∨ ∃ i, region = some i ∧ x ∈ i.styles := by
  simp only [validatedStyles, List.mem_append, List.mem_filter, Bool.and_eq_true, decide_eq_true_eq]
  have hinh : ∀ x, x ∈ inheritedStyles refd stack ↔ (∃ l ∈ stack, x ∈ l) ∧ x ∉ refd := by
    intro x
    rw [inheritedStyles, mem_inherited]
    simp [List.mem_flatten]
  rw [hinh]
  have hreg : x ∈ (region.map (·.styles)).getD [] ↔ ∃ i, region = some i ∧ x ∈ i.styles := by
    cases region with
    | none => simp
    | some i => simp
  rw [hreg]
  constructor
  · rintro ((h | h) | h)
    · exact Or.inl h
    · exact Or.inr (Or.inl h.1)
    · exact Or.inr (Or.inr h.1)
  · rintro (h | h | h)
    · exact Or.inl (Or.inl h)
    · by_cases hx : x ∈ refd
      · exact Or.inl (Or.inl hx)
      · exact Or.inl (Or.inr ⟨h, hx⟩)
    · by_cases hx : x ∈ refd
      · exact Or.inl (Or.inl hx)
      · by_cases hs : ∃ l ∈ stack, x ∈ l
        · exact Or.inl (Or.inr ⟨hs, hx⟩)
        · exact Or.inr ⟨h, hx, fun h' => hs h'.1⟩

/-- What validation records of an element: the referenced styles are the resolution of its references, the
specified style is their combination, and the styles kept for it include those of the elements around
it and of its region. -/
def Recorded (hd : Head) (anc : List PLab) (x : PLab) : Prop :=
  refStyles hd x.att.style = .ok x.referenced ∧ x.spec = resolve hd.own x.referenced ∧
  (∀ y ∈ anc ++ [x], ∀ s ∈ y.referenced, s ∈ x.validated) ∧ ∀ i, x.region = some i → ∀ s ∈ i.styles, s ∈ x.validated

mutual
theorem present_recorded {hd : Head} {infos : List RInfo} : ∀ {n : Node Att} {c : Ctx} {parent : Option Computed} {r : Ctx × Node PLab}
    {anc : List PLab}, present hd infos c parent n = .ok r → Doc.shaped n = true → (∀ y ∈ anc, y.referenced ∈ c.stack) →
    Every (Recorded hd) anc r.2
  | .text s, c, parent, r, anc, h, _, _ => by rw [present] at h; cases h; trivial
  | .br, c, parent, r, anc, h, _, _ => by rw [present] at h; cases h; trivial
  | .elem a kids, c, parent, r, anc, h, hs, hc => by
    obtain ⟨rg, refd, q, h1, h2, h3, hr⟩ := present_elem h
    subst hr
    rw [Doc.shaped, Bool.and_eq_true] at hs
    refine ⟨⟨h2, rfl, ?_, ?_⟩, presentL_recorded h3 hs.2 ?_ ?_⟩
    · intro y hy s hsy
      show s ∈ validatedStyles refd c.stack rg
      rw [mem_validated]
      rcases List.mem_append.1 hy with h | h
      · exact Or.inr (Or.inl ⟨_, hc y h, hsy⟩)
      · rw [List.mem_singleton] at h
        subst h
        exact Or.inl hsy
    · intro i hi s hsi
      show s ∈ validatedStyles refd c.stack rg
      rw [mem_validated]
      exact Or.inr (Or.inr ⟨i, hi, hsi⟩)
    · intro k hk b bs hkb hbody
      have := List.all_eq_true.1 hs.1 k hk
      subst hkb
      simp only [Doc.fits] at this
      split at this <;> (rw [hbody] at this; simp at this)
    · intro y hy
      rcases List.mem_append.1 hy with h | h
      · exact List.mem_append_left _ (hc y h)
      · rw [List.mem_singleton] at h
        subst h
        simp [label]
theorem presentL_recorded {hd : Head} {infos : List RInfo} : ∀ {ks : List (Node Att)} {c : Ctx} {parent : Option Computed}
    {r : Ctx × List (Node PLab)} {anc : List PLab}, presentL hd infos c parent ks = .ok r → Doc.shapedL ks = true →
    (∀ k ∈ ks, ∀ a kids, k = .elem a kids → a.kind ≠ .body) →
    (∀ y ∈ anc, y.referenced ∈ c.stack) → EveryL (Recorded hd) anc r.2
  | [], c, parent, r, anc, h, _, _, _ => by rw [presentL] at h; cases h; trivial
  | k :: ks, c, parent, r, anc, h, hs, hb, hc => by
    obtain ⟨q, qs, h1, h2, hr⟩ := presentL_cons h
    subst hr
    rw [Doc.shapedL, Bool.and_eq_true] at hs
    refine ⟨present_recorded h1 hs.1 hc, presentL_recorded h2 hs.2 (fun k hk => hb k (List.mem_cons_of_mem _ hk)) ?_⟩
    intro y hy
    rw [present_leak h1 hs.1 (hb k (by simp))]
    exact List.mem_append_left _ (hc y hy)
end

/-! ### C32 -/

/-- **C32**: validating a p or a span, with everything in it, leaves the style stack as it was. -/
theorem C32_p_and_span_restore_the_stack (hd : Head) (infos : List RInfo) (c : Ctx) (parent : Option Computed) (a : Att)
    (kids : List (Node Att)) (hk : a.kind = .p ∨ a.kind = .span) (hs : Doc.shaped (.elem a kids) = true) (r : Ctx × Node PLab)
    (h : present hd infos c parent (.elem a kids) = .ok r) : r.1.stack = c.stack := by
  apply present_stack h
  rw [Doc.shaped, Bool.and_eq_true] at hs
  rw [noDivs, Bool.and_eq_true]
  refine ⟨by rcases hk with h | h <;> simp [h], leaf_noDivsL hs.2 (List.all_eq_true.1 hs.1) hk⟩

/-- **C32**: the current region after an element is the one before it if no element inside has a region
attribute, and otherwise none. -/
theorem C32_region_afterwards (hd : Head) (infos : List RInfo) (c : Ctx) (parent : Option Computed) (n : Node Att)
    (r : Ctx × Node PLab) (h : present hd infos c parent n = .ok r) :
    r.1.region = if noRegions n then c.region else none := present_region h

/-- **C32** (partial): in a document in which no element with a region attribute lies inside another one,
siblings do not influence each other's computed style: the region of every element is that of the
innermost element around it that has one (or its own), and its computed style is the one computed along
the chain of elements from the body to it, each with its own specified style and its region.

Missing: with nested region attributes it is false (`C32_false_region`), and `validated_styles`, which is not
used for computing styles, does contain styles of earlier siblings (`C32_false_styles`). -/
theorem C32_computed_style_ignores_siblings_partial (hd : Head) (body : Node Att) (hs : Doc.shaped body = true)
    (hu : unnested body = true) (infos : List RInfo) (doc : Node PLab) (h : presentDoc hd body = .ok (infos, doc)) :
    forget doc = body ∧ ∀ anc x kids, Reach doc anc (.elem x kids) →
      x.region.map (·.id) = nearest ((anc ++ [x]).map (·.att)) ∧
      refStyles hd x.att.style = .ok x.referenced ∧ x.spec = resolve hd.own x.referenced ∧
      chain hd.geo ((anc ++ [x]).map levelOf) = some x.comp := by
  obtain ⟨_, c, hp⟩ := presentDoc_ok h
  refine ⟨present_forget hp, ?_⟩
  intro anc x kids hr
  have h1 := every_reach (present_nearest (anc := []) hp hu rfl rfl) hr
  have h2 := every_reach (present_recorded (anc := []) hp hs (by simp)) hr
  have h3 := every_reach (present_chain (anc := []) hp rfl) hr
  rw [Every] at h1 h2 h3
  exact ⟨h1.1, h2.1.1, h2.1.2.1, h3.1⟩

/-- **C32**: the styles recorded for an element always include those it refers to, those the elements
around it refer to, and those of its region. -/
theorem C32_recorded_styles_suffice (hd : Head) (body : Node Att) (hs : Doc.shaped body = true)
    (infos : List RInfo) (doc : Node PLab) (h : presentDoc hd body = .ok (infos, doc)) :
    ∀ anc x kids, Reach doc anc (.elem x kids) →
      (∀ y ∈ anc ++ [x], ∀ s ∈ y.referenced, s ∈ x.validated) ∧ ∀ i, x.region = some i → ∀ s ∈ i.styles, s ∈ x.validated := by
  obtain ⟨_, c, hp⟩ := presentDoc_ok h
  intro anc x kids hr
  have h2 := every_reach (present_recorded (anc := []) hp hs (by simp)) hr
  rw [Every] at h2
  exact h2.1.2.2

/-! ### Witnesses -/

/-- Two styles and two regions; the regions use one style each. -/
def exHead : Head where
  sheet := [("s".toList, []), ("t".toList, [])]
  own := fun n => if n = "s".toList then { inh := fun x => if x = .color then some "red".toList else none }
    else { inh := fun x => if x = .color then some "blue".toList else none }
  regions := [⟨"r".toList, ["s".toList], none⟩, ⟨"q".toList, ["t".toList], none⟩]
  geo := ⟨1, 1⟩

mutual
/-- The labels in document order. -/
def labels : Node PLab → List PLab
  | .elem x kids => x :: labelsL kids
  | _ => []
def labelsL : List (Node PLab) → List PLab
  | [] => []
  | k :: ks => labels k ++ labelsL ks
end

/-- What the passes record for each element. -/
def summary (hd : Head) (body : Node Att) : Option (List (Option Name × List Name × Option Val)) :=
  (presentDoc hd body).toOption.map (fun r => (labels r.2).map (fun x => (x.region.map (·.id), x.validated, (x.comp.inh .color).1)))

/-- Regions on the p elements only: the hypotheses are met. -/
def exRegions : Node Att := .elem { kind := .body } [.elem { kind := .div, style := ["t".toList] } [
  .elem { kind := .p, region := some "r".toList } [.text "x".toList],
  .elem { kind := .p, region := some "q".toList, style := ["s".toList] } [.text "y".toList]]]

example : Doc.shaped exRegions = true ∧ unnested exRegions = true ∧
    summary exHead exRegions = some [(none, [], none), (none, ["t".toList], some "blue".toList),
      (some "r".toList, ["t".toList, "s".toList], some "blue".toList),
      (some "q".toList, ["s".toList, "t".toList], some "red".toList)] := by decide +kernel

/-- A style of a div is recorded for the div after it: div does not take its styles off the stack. -/
theorem C32_false_styles : ∃ body, Doc.shaped body = true ∧
    summary exHead body = some [(none, [], none), (none, ["s".toList], some "red".toList), (none, ["s".toList], none)] :=
  ⟨.elem { kind := .body } [.elem { kind := .div, style := ["s".toList] } [], .elem { kind := .div } []],
    by decide, by decide +kernel⟩

/-- A div in region `r` with two p elements, the first of which names region `q`: the second one is recorded with no
region, although the same p alone in that div is recorded with region `r`. -/
theorem C32_false_region : ∃ body, Doc.shaped body = true ∧
    summary exHead body = some [(none, [], none), (some "r".toList, ["s".toList], some "red".toList),
      (some "q".toList, ["t".toList], some "red".toList), (none, [], some "red".toList)] ∧
    ∃ body', Doc.shaped body' = true ∧
    summary exHead body' = some [(none, [], none), (some "r".toList, ["s".toList], some "red".toList),
      (some "r".toList, ["s".toList], some "red".toList)] :=
  ⟨.elem { kind := .body } [.elem { kind := .div, region := some "r".toList } [
      .elem { kind := .p, region := some "q".toList } [.text "x".toList], .elem { kind := .p } [.text "y".toList]]],
    by decide, by decide +kernel,
    .elem { kind := .body } [.elem { kind := .div, region := some "r".toList } [.elem { kind := .p } [.text "y".toList]]],
    by decide, by decide +kernel⟩

end Verif.Style
