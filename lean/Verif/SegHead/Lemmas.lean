import Verif.SegHead.Rename
import Verif.SegHead.TimelineProps
import Verif.Doc.SegmentProps

/-!
# Lemmas about segments of whole documents
-/
namespace Verif.SegHead

open Verif.Doc (Node Att Kind Lab Comp Win Env SErr TErr Reach bind_ok)
open Verif.Style (Head PLab RInfo RegionDef PErr Name Sheet Specified Computed Refers refStyles setRegion ownRegion present presentL
  presentRegion presentRegions leave label)

/-! ### Relabelling -/

theorem mapNL_eq {α β : Type} (f : α → β) : ∀ ks : List (Node α), mapNL f ks = ks.map (mapN f)
  | [] => rfl
  | k :: ks => by rw [mapNL, mapNL_eq f ks]; rfl

theorem mapNL_append {α β : Type} (f : α → β) (a b : List (Node α)) : mapNL f (a ++ b) = mapNL f a ++ mapNL f b := by
  simp [mapNL_eq]

mutual
theorem mapN_mapN {α β γ : Type} (f : α → β) (g : β → γ) : ∀ n : Node α, mapN g (mapN f n) = mapN (fun x => g (f x)) n
  | .text s => rfl
  | .br => rfl
  | .elem x kids => by simp only [mapN, mapNL_mapNL f g kids]
theorem mapNL_mapNL {α β γ : Type} (f : α → β) (g : β → γ) : ∀ ks : List (Node α), mapNL g (mapNL f ks) = mapNL (fun x => g (f x)) ks
  | [] => rfl
  | k :: ks => by simp only [mapNL, mapN_mapN f g k, mapNL_mapNL f g ks]
end

mutual
theorem erase_mapN : ∀ n : Node Full, Doc.erase (mapN Full.lab n) = mapN Full.att n
  | .text s => rfl
  | .br => rfl
  | .elem x kids => by simp only [mapN, Doc.erase, erase_mapNL kids]; rfl
theorem erase_mapNL : ∀ ks : List (Node Full), Doc.eraseL (mapNL Full.lab ks) = mapNL Full.att ks
  | [] => rfl
  | k :: ks => by simp only [mapNL, Doc.eraseL, erase_mapN k, erase_mapNL ks]
end

theorem reach_mapN {α β : Type} {f : α → β} {root : Node α} {anc : List α} {n : Node α} (h : Reach root anc n) :
    Reach (mapN f root) (anc.map f) (mapN f n) := by
  induction h with
  | here => exact .here
  | @step anc x kids k _ hk ih =>
    rw [mapN] at ih
    have := Reach.step (k := mapN f k) ih (by rw [mapNL_eq]; exact List.mem_map.mpr ⟨k, hk, rfl⟩)
    simpa using this

theorem reach_of_mapN {α β : Type} {f : α → β} {root : Node α} {anc' : List β} {n' : Node β} (h : Reach (mapN f root) anc' n') :
    ∃ anc n, anc' = anc.map f ∧ n' = mapN f n ∧ Reach root anc n := by
  induction h with
  | here => exact ⟨[], root, rfl, rfl, .here⟩
  | @step anc' x' kids' k' _ hk ih =>
    obtain ⟨anc, n, rfl, hn, hr⟩ := ih
    cases n with
    | text s => simp [mapN] at hn
    | br => simp [mapN] at hn
    | elem x kids =>
      simp only [mapN, Node.elem.injEq] at hn
      obtain ⟨rfl, rfl⟩ := hn
      rw [mapNL_eq] at hk
      obtain ⟨k, hk1, rfl⟩ := List.mem_map.mp hk
      exact ⟨anc ++ [x], k, by simp, rfl, .step hr hk1⟩

/-! ### Validation and its two parts -/

theorem liftE_ok {ε α : Type} {f : ε → VErr} {x : Except ε α} {a : α} : liftE f x = .ok a ↔ x = .ok a := by
  cases x <;> simp [liftE]

mutual
theorem check_ok {hd : Head} {infos : List RInfo} : ∀ {n : Node Att} {tc : Doc.Ctx} {pc : Style.Ctx} {par : Option Computed}
    {r : Doc.Ctx × Style.Ctx × Node Full}, check hd infos tc pc par n = .ok r →
    r.1 = tc ∧ mapN Full.lab r.2.2 = Doc.times tc.avail tc.sync tc.ends.head? n ∧
    present hd infos pc par n = .ok (r.2.1, mapN Full.pres r.2.2) ∧ mapN Full.att r.2.2 = n
  | .text s, tc, pc, par, r, h => by
    rw [check] at h; cases h; exact ⟨rfl, rfl, rfl, rfl⟩
  | .br, tc, pc, par, r, h => by
    rw [check] at h; cases h; exact ⟨rfl, rfl, rfl, rfl⟩
  | .elem a kids, tc, pc, par, r, h => by
    rw [check] at h
    obtain ⟨rg, h1, h⟩ := bind_ok h
    obtain ⟨refd, h2, h⟩ := bind_ok h
    obtain ⟨q, h3, h⟩ := bind_ok h
    obtain ⟨t, h4, h⟩ := bind_ok h
    cases h
    rw [liftE_ok] at h1 h2 h4
    obtain ⟨e1, e2, e3, e4⟩ := checkL_ok h3
    rw [e1, e2, Doc.pre_eq] at h4
    have hh : ((Doc.ownEnd tc.avail tc.sync tc.ends.head? a).toList ++ tc.ends).head? =
        Doc.below (Doc.ownEnd tc.avail tc.sync tc.ends.head? a) tc.ends.head? := by
      cases Doc.ownEnd tc.avail tc.sync tc.ends.head? a <;> rfl
    rw [Doc.post_eq] at h4
    simp only [Except.ok.injEq] at h4
    rw [Doc.pre_eq] at e2
    simp only [hh] at h4 e2
    refine ⟨by rw [← h4], ?_, ?_, ?_⟩
    · rw [mapN, e2, Doc.times, ← h4]
    · rw [present, h1, h2]
      simp only [bind, Except.bind]
      rw [e3]
      rfl
    · rw [mapN, e4]; rfl
theorem checkL_ok {hd : Head} {infos : List RInfo} : ∀ {ks : List (Node Att)} {tc : Doc.Ctx} {pc : Style.Ctx} {par : Option Computed}
    {r : Doc.Ctx × Style.Ctx × List (Node Full)}, checkL hd infos tc pc par ks = .ok r →
    r.1 = tc ∧ mapNL Full.lab r.2.2 = Doc.timesL tc.avail tc.sync tc.ends.head? ks ∧
    presentL hd infos pc par ks = .ok (r.2.1, mapNL Full.pres r.2.2) ∧ mapNL Full.att r.2.2 = ks
  | [], tc, pc, par, r, h => by
    rw [checkL] at h; cases h; exact ⟨rfl, rfl, rfl, rfl⟩
  | k :: ks, tc, pc, par, r, h => by
    rw [checkL] at h
    obtain ⟨q, h1, h⟩ := bind_ok h
    obtain ⟨qs, h2, h⟩ := bind_ok h
    cases h
    obtain ⟨a1, a2, a3, a4⟩ := check_ok h1
    rw [a1] at h2
    obtain ⟨b1, b2, b3, b4⟩ := checkL_ok h2
    refine ⟨b1, ?_, ?_, ?_⟩
    · rw [mapNL, Doc.timesL, a2, b2]
    · rw [presentL, a3]
      simp only [bind, Except.bind]
      rw [b3]
      rfl
    · rw [mapNL, a4, b4]
end

mutual
theorem check_of {hd : Head} {infos : List RInfo} : ∀ {n : Node Att} {tc : Doc.Ctx} {pc : Style.Ctx} {par : Option Computed}
    {r : Style.Ctx × Node PLab}, present hd infos pc par n = .ok r → ∃ f, check hd infos tc pc par n = .ok (tc, r.1, f)
  | .text s, tc, pc, par, r, h => by rw [present] at h; cases h; exact ⟨_, rfl⟩
  | .br, tc, pc, par, r, h => by rw [present] at h; cases h; exact ⟨_, rfl⟩
  | .elem a kids, tc, pc, par, r, h => by
    obtain ⟨rg, refd, q, h1, h2, h3, rfl⟩ := Style.present_elem h
    obtain ⟨f, hf⟩ := checkL_of (tc := (Doc.pre tc a).1) h3
    obtain ⟨_, e2, _, _⟩ := checkL_ok hf
    refine ⟨.elem ⟨⟨a, Doc.compOf tc.avail tc.sync tc.ends.head? a (Doc.timedKids (mapNL Full.lab f))⟩,
      label hd a pc.stack rg par refd⟩ f, ?_⟩
    rw [check, h1, h2]
    simp only [liftE, bind, Except.bind]
    rw [hf]
    simp only
    have := Doc.post_eq tc a (mapNL Full.lab f)
    rw [Doc.pre_eq] at *
    simp only at *
    rw [this]
    rfl
theorem checkL_of {hd : Head} {infos : List RInfo} : ∀ {ks : List (Node Att)} {tc : Doc.Ctx} {pc : Style.Ctx} {par : Option Computed}
    {r : Style.Ctx × List (Node PLab)}, presentL hd infos pc par ks = .ok r → ∃ f, checkL hd infos tc pc par ks = .ok (tc, r.1, f)
  | [], tc, pc, par, r, h => by rw [presentL] at h; cases h; exact ⟨_, rfl⟩
  | k :: ks, tc, pc, par, r, h => by
    obtain ⟨q, qs, h1, h2, rfl⟩ := Style.presentL_cons h
    obtain ⟨f, hf⟩ := check_of (tc := tc) h1
    obtain ⟨fs, hfs⟩ := checkL_of (tc := tc) h2
    refine ⟨f :: fs, ?_⟩
    rw [checkL, hf]
    simp only [bind, Except.bind]
    rw [hfs]
    rfl
end

/-- The parts of a successful validation. -/
theorem validate_ok {d : HDoc} {infos : List RInfo} {n : Node Full} (h : d.validate = .ok (infos, n)) :
    d.ids.Nodup ∧ presentRegions d.head d.head.regions = .ok infos ∧
    mapN Full.lab n = Doc.times d.avail 0 none d.body ∧
    (∃ pc, present d.head infos ⟨[], none⟩ none d.body = .ok (pc, mapN Full.pres n)) ∧ mapN Full.att n = d.body := by
  unfold HDoc.validate at h
  split at h
  · rename_i hn
    obtain ⟨i, h1, h⟩ := bind_ok h
    obtain ⟨r, h2, h⟩ := bind_ok h
    cases h
    rw [liftE_ok] at h1
    obtain ⟨_, e2, e3, e4⟩ := check_ok h2
    exact ⟨hn, h1, e2, ⟨_, e3⟩, e4⟩
  · cases h

theorem validate_of {d : HDoc} {infos : List RInfo} {pc : Style.Ctx} {p : Node PLab} (hn : d.ids.Nodup)
    (hr : presentRegions d.head d.head.regions = .ok infos) (hp : present d.head infos ⟨[], none⟩ none d.body = .ok (pc, p)) :
    ∃ n, d.validate = .ok (infos, n) := by
  obtain ⟨f, hf⟩ := check_of (tc := Doc.initCtx d.avail) hp
  refine ⟨f, ?_⟩
  unfold HDoc.validate
  rw [if_pos hn, hr]
  simp only [liftE, bind, Except.bind]
  rw [hf]
  rfl

/-! ### When the presentation part succeeds -/

theorem setRegion_some {infos : List RInfo} {a : Att} (h : ∀ r, ownRegion a = some r → ∃ i ∈ infos, i.id = r)
    (cur : Option RInfo) : ∃ rg, setRegion infos a cur = .ok rg := by
  unfold setRegion
  cases ho : ownRegion a with
  | none =>
    have : (if Doc.hasRegion a.kind then a.region else none) = none := ho
    rw [this]; exact ⟨_, rfl⟩
  | some r =>
    have : (if Doc.hasRegion a.kind then a.region else none) = some r := ho
    rw [this]
    simp only
    obtain ⟨i, hi, e⟩ := h r ho
    cases hf : infos.find? (fun i => decide (i.id = r)) with
    | some j => exact ⟨_, rfl⟩
    | none =>
      have := List.find?_eq_none.mp hf i hi
      simp [e] at this

mutual
theorem present_some {hd : Head} {infos : List RInfo} : ∀ {n : Node Att}
    (_ : ∀ a ∈ labelsOf n, (∃ l, refStyles hd a.style = .ok l) ∧ ∀ r, ownRegion a = some r → ∃ i ∈ infos, i.id = r)
    (c : Style.Ctx) (par : Option Computed), ∃ r, present hd infos c par n = .ok r
  | .text s, _, c, par => ⟨_, rfl⟩
  | .br, _, c, par => ⟨_, rfl⟩
  | .elem a kids, h, c, par => by
    obtain ⟨⟨l, h1⟩, h2⟩ := h a (by simp [labelsOf])
    obtain ⟨rg, h2⟩ := setRegion_some h2 c.region
    obtain ⟨q, hq⟩ := presentL_some (ks := kids) (fun b hb => h b (by simp [labelsOf, hb])) ⟨c.stack ++ [l], rg⟩
      (some (label hd a c.stack rg par l).comp)
    refine ⟨(leave a q.1, .elem (label hd a c.stack rg par l) q.2), ?_⟩
    rw [present, h2, h1]
    simp only [bind, Except.bind]
    rw [hq]
    rfl
theorem presentL_some {hd : Head} {infos : List RInfo} : ∀ {ks : List (Node Att)}
    (_ : ∀ a ∈ labelsOfL ks, (∃ l, refStyles hd a.style = .ok l) ∧ ∀ r, ownRegion a = some r → ∃ i ∈ infos, i.id = r)
    (c : Style.Ctx) (par : Option Computed), ∃ r, presentL hd infos c par ks = .ok r
  | [], _, c, par => ⟨_, rfl⟩
  | k :: ks, h, c, par => by
    obtain ⟨q, hq⟩ := present_some (n := k) (fun b hb => h b (by simp [labelsOfL, hb])) c par
    obtain ⟨qs, hqs⟩ := presentL_some (ks := ks) (fun b hb => h b (by simp [labelsOfL, hb])) q.1 par
    refine ⟨(qs.1, q.2 :: qs.2), ?_⟩
    rw [presentL, hq]
    simp only [bind, Except.bind]
    rw [hqs]
    rfl
end

/-! ### What validation records of the elements -/

theorem mem_labelsOfL {α : Type} {x : α} : ∀ {ks : List (Node α)}, x ∈ labelsOfL ks ↔ ∃ k ∈ ks, x ∈ labelsOf k
  | [] => by simp [labelsOfL]
  | k :: ks => by simp [labelsOfL, mem_labelsOfL (ks := ks)]

theorem labels_of_reach {α : Type} {root : Node α} {anc : List α} {n : Node α} (h : Reach root anc n) :
    (∀ y ∈ anc, y ∈ labelsOf root) ∧ ∀ y ∈ labelsOf n, y ∈ labelsOf root := by
  induction h with
  | here => simp
  | @step anc x kids k _ hk ih =>
    refine ⟨?_, fun y hy => ih.2 y (by rw [labelsOf]; exact List.mem_cons_of_mem _ (mem_labelsOfL.mpr ⟨k, hk, hy⟩))⟩
    intro y hy
    rcases List.mem_append.mp hy with hy | hy
    · exact ih.1 y hy
    · rw [List.mem_singleton] at hy
      subst hy
      exact ih.2 y (by simp [labelsOf])

mutual
theorem reach_of_label {α : Type} {x : α} : ∀ {n : Node α}, x ∈ labelsOf n → ∃ anc kids, Reach n anc (.elem x kids)
  | .text s, h => by simp [labelsOf] at h
  | .br, h => by simp [labelsOf] at h
  | .elem y kids, h => by
    rw [labelsOf, List.mem_cons] at h
    rcases h with rfl | h
    · exact ⟨[], kids, .here⟩
    · obtain ⟨k, hk, anc, ks, hr⟩ := reachL_of_label h
      have := Doc.reach_trans (x := y) (root := .elem y kids) .here hk hr
      exact ⟨_, ks, this⟩
theorem reachL_of_label {α : Type} {x : α} : ∀ {ns : List (Node α)}, x ∈ labelsOfL ns → ∃ k ∈ ns, ∃ anc kids, Reach k anc (.elem x kids)
  | [], h => by simp [labelsOfL] at h
  | k :: ks, h => by
    rw [labelsOfL, List.mem_append] at h
    rcases h with h | h
    · exact ⟨k, List.mem_cons_self, reach_of_label h⟩
    · obtain ⟨k', hk', h'⟩ := reachL_of_label h
      exact ⟨k', List.mem_cons_of_mem _ hk', h'⟩
end

mutual
theorem labels_mapN {α β : Type} (f : α → β) : ∀ n : Node α, labelsOf (mapN f n) = (labelsOf n).map f
  | .text s => rfl
  | .br => rfl
  | .elem x kids => by simp only [mapN, labelsOf, labels_mapNL f kids, List.map_cons]
theorem labels_mapNL {α β : Type} (f : α → β) : ∀ ks : List (Node α), labelsOfL (mapNL f ks) = (labelsOfL ks).map f
  | [] => rfl
  | k :: ks => by simp only [mapNL, labelsOfL, labels_mapN f k, labels_mapNL f ks, List.map_append]
end

/-- Closed under references, and all of it in the sheet. -/
def Closed (sh : Sheet) (l : List Name) : Prop :=
  (∀ s ∈ l, ∀ t, Refers sh s t → t ∈ l) ∧ ∀ s ∈ l, (Style.find sh s).isSome

/-- What holds of every validated element. -/
structure Facts (hd : Head) (infos : List RInfo) (x : PLab) : Prop where
  refs : refStyles hd x.att.style = .ok x.referenced
  spec : x.spec = Style.resolve hd.own x.referenced
  sub : ∀ s ∈ x.referenced, s ∈ x.validated
  closed : Closed hd.sheet x.validated
  region : ∀ r, ownRegion x.att = some r → ∃ i, x.region = some i ∧ i.id = r
  known : ∀ i, x.region = some i → i ∈ infos
  rstyles : ∀ i, x.region = some i → ∀ s ∈ i.styles, s ∈ x.validated

theorem closed_of_refs {hd : Head} {refs l : List Name} (h : refStyles hd refs = .ok l) : Closed hd.sheet l :=
  ⟨(refStyles_closed h).2.1, (refStyles_closed h).2.2⟩

theorem closed_validated {sh : Sheet} {refd : List Name} {stack : List (List Name)} {rg : Option RInfo} (h1 : Closed sh refd)
    (h2 : ∀ l ∈ stack, Closed sh l) (h3 : ∀ i, rg = some i → Closed sh i.styles) : Closed sh (Style.validatedStyles refd stack rg) := by
  constructor
  · intro s hs t hst
    rw [Style.mem_validated] at hs ⊢
    rcases hs with hs | ⟨l, hl, hs⟩ | ⟨i, hi, hs⟩
    · exact .inl (h1.1 s hs t hst)
    · exact .inr (.inl ⟨l, hl, (h2 l hl).1 s hs t hst⟩)
    · exact .inr (.inr ⟨i, hi, (h3 i hi).1 s hs t hst⟩)
  · intro s hs
    rw [Style.mem_validated] at hs
    rcases hs with hs | ⟨l, hl, hs⟩ | ⟨i, hi, hs⟩
    · exact h1.2 s hs
    · exact (h2 l hl).2 s hs
    · exact (h3 i hi).2 s hs

/-- What holds of the dataset during validation. -/
structure CtxOk (hd : Head) (infos : List RInfo) (c : Style.Ctx) : Prop where
  stack : ∀ l ∈ c.stack, Closed hd.sheet l
  region : ∀ i, c.region = some i → i ∈ infos

mutual
theorem present_facts {hd : Head} {infos : List RInfo} (hi : ∀ i ∈ infos, Closed hd.sheet i.styles) : ∀ {n : Node Att} {c : Style.Ctx}
    {par : Option Computed} {r : Style.Ctx × Node PLab}, present hd infos c par n = .ok r → CtxOk hd infos c →
    CtxOk hd infos r.1 ∧ ∀ x ∈ labelsOf r.2, Facts hd infos x
  | .text s, c, par, r, h, hc => by rw [present] at h; cases h; exact ⟨hc, by simp [labelsOf]⟩
  | .br, c, par, r, h, hc => by rw [present] at h; cases h; exact ⟨hc, by simp [labelsOf]⟩
  | .elem a kids, c, par, r, h, hc => by
    obtain ⟨rg, refd, q, h1, h2, h3, rfl⟩ := Style.present_elem h
    have hrg : ∀ i, rg = some i → i ∈ infos := by
      intro i hi'
      obtain ⟨g1, g2⟩ := Style.setRegion_ok h1
      cases ho : ownRegion a with
      | none => rw [g1 ho] at hi'; exact hc.region i hi'
      | some r =>
        obtain ⟨j, hj, e, _⟩ := g2 r ho
        rw [e] at hi'
        injection hi' with hi'
        exact hi' ▸ hj
    have hcl := closed_of_refs h2
    obtain ⟨k1, k2⟩ := presentL_facts hi h3 ⟨by
      intro l hl
      rcases List.mem_append.mp hl with hl | hl
      · exact hc.stack l hl
      · rw [List.mem_singleton] at hl; exact hl ▸ hcl, hrg⟩
    refine ⟨⟨?_, ?_⟩, ?_⟩
    · intro l hl
      apply k1.stack
      simp only [leave] at hl
      split at hl
      · exact hl
      · exact (List.dropLast_sublist _).mem hl
    · intro i hi'
      rw [Style.leave_region] at hi'
      split at hi'
      · cases hi'
      · exact k1.region i hi'
    · intro x hx
      rw [labelsOf, List.mem_cons] at hx
      rcases hx with rfl | hx
      · refine ⟨h2, rfl, ?_, closed_validated hcl hc.stack (fun i hi' => hi i (hrg i hi')), ?_, hrg, ?_⟩
        · intro s hs
          show s ∈ Style.validatedStyles refd c.stack rg
          rw [Style.mem_validated]; exact .inl hs
        · intro r hr
          obtain ⟨i, _, e1, e2⟩ := (Style.setRegion_ok h1).2 r hr
          exact ⟨i, e1, e2⟩
        · intro i hi' s hs
          show s ∈ Style.validatedStyles refd c.stack rg
          rw [Style.mem_validated]; exact .inr (.inr ⟨i, hi', hs⟩)
      · exact k2 x hx
theorem presentL_facts {hd : Head} {infos : List RInfo} (hi : ∀ i ∈ infos, Closed hd.sheet i.styles) : ∀ {ks : List (Node Att)}
    {c : Style.Ctx} {par : Option Computed} {r : Style.Ctx × List (Node PLab)}, presentL hd infos c par ks = .ok r → CtxOk hd infos c →
    CtxOk hd infos r.1 ∧ ∀ x ∈ labelsOfL r.2, Facts hd infos x
  | [], c, par, r, h, hc => by rw [presentL] at h; cases h; exact ⟨hc, by simp [labelsOfL]⟩
  | k :: ks, c, par, r, h, hc => by
    obtain ⟨q, qs, h1, h2, rfl⟩ := Style.presentL_cons h
    obtain ⟨a1, a2⟩ := present_facts hi h1 hc
    obtain ⟨b1, b2⟩ := presentL_facts hi h2 a1
    refine ⟨b1, ?_⟩
    intro x hx
    rw [labelsOfL, List.mem_append] at hx
    exact hx.elim (a2 x) (b2 x)
end

/-- The validated regions. -/
theorem presentRegions_ok {hd : Head} : ∀ {rs : List RegionDef} {infos : List RInfo}, presentRegions hd rs = .ok infos →
    List.Forall₂ (fun r i => presentRegion hd r = .ok i) rs infos
  | [], infos, h => by rw [presentRegions] at h; cases h; exact .nil
  | r :: rs, infos, h => by
    rw [presentRegions] at h
    obtain ⟨i, h1, h⟩ := bind_ok h
    obtain ⟨is, h2, h⟩ := bind_ok h
    cases h
    exact .cons h1 (presentRegions_ok h2)

theorem presentRegions_some {hd : Head} : ∀ {rs : List RegionDef}, (∀ r ∈ rs, ∃ l, refStyles hd r.refs = .ok l) →
    ∃ infos, presentRegions hd rs = .ok infos
  | [], _ => ⟨[], rfl⟩
  | r :: rs, h => by
    obtain ⟨l, hl⟩ := h r List.mem_cons_self
    obtain ⟨is, his⟩ := presentRegions_some (rs := rs) (fun r hr => h r (List.mem_cons_of_mem _ hr))
    have : ∃ i, presentRegion hd r = .ok i := by
      unfold presentRegion; rw [hl]; exact ⟨_, rfl⟩
    obtain ⟨i, hi⟩ := this
    refine ⟨i :: is, ?_⟩
    rw [presentRegions, hi]
    simp only [bind, Except.bind]
    rw [his]
    rfl

theorem presentRegion_ok {hd : Head} {r : RegionDef} {i : RInfo} (h : presentRegion hd r = .ok i) :
    i.id = r.id ∧ refStyles hd r.refs = .ok i.styles := by
  unfold presentRegion at h
  obtain ⟨l, h1, h⟩ := bind_ok h
  cases h
  exact ⟨rfl, h1⟩

theorem forall₂_ids {hd : Head} {rs : List RegionDef} {infos : List RInfo}
    (h : List.Forall₂ (fun r i => presentRegion hd r = .ok i) rs infos) : infos.map (·.id) = rs.map (·.id) := by
  induction h with
  | nil => rfl
  | cons h1 _ ih => simp only [List.map_cons, ih, (presentRegion_ok h1).1]

theorem forall₂_right {α β : Type} {R : α → β → Prop} {l : List α} {m : List β} (h : List.Forall₂ R l m) :
    ∀ y ∈ m, ∃ x ∈ l, R x y := by
  induction h with
  | nil => simp
  | cons h1 _ ih =>
    intro y hy
    rcases List.mem_cons.mp hy with rfl | hy
    · exact ⟨_, List.mem_cons_self, h1⟩
    · obtain ⟨x, hx, hr⟩ := ih y hy
      exact ⟨x, List.mem_cons_of_mem _ hx, hr⟩

theorem forall₂_left {α β : Type} {R : α → β → Prop} {l : List α} {m : List β} (h : List.Forall₂ R l m) :
    ∀ x ∈ l, ∃ y ∈ m, R x y := by
  induction h with
  | nil => simp
  | cons h1 _ ih =>
    intro x hx
    rcases List.mem_cons.mp hx with rfl | hx
    · exact ⟨_, List.mem_cons_self, h1⟩
    · obtain ⟨y, hy, hr⟩ := ih x hx
      exact ⟨y, List.mem_cons_of_mem _ hy, hr⟩

mutual
theorem att_eq : ∀ {n : Node Full}, mapN Full.att n = mapN (fun x => x.pres.att) n → ∀ x ∈ labelsOf n, x.pres.att = x.att
  | .text s, _ => by simp [labelsOf]
  | .br, _ => by simp [labelsOf]
  | .elem y kids, h => by
    simp only [mapN, Node.elem.injEq] at h
    intro x hx
    rw [labelsOf, List.mem_cons] at hx
    rcases hx with rfl | hx
    · exact h.1.symm
    · exact attL_eq h.2 x hx
theorem attL_eq : ∀ {ks : List (Node Full)}, mapNL Full.att ks = mapNL (fun x => x.pres.att) ks → ∀ x ∈ labelsOfL ks, x.pres.att = x.att
  | [], _ => by simp [labelsOfL]
  | k :: ks, h => by
    simp only [mapNL, List.cons.injEq] at h
    intro x hx
    rw [labelsOfL, List.mem_append] at hx
    exact hx.elim (att_eq h.1 x) (attL_eq h.2 x)
end

mutual
theorem forget_eq : ∀ n : Node PLab, Style.forget n = mapN PLab.att n
  | .text s => rfl
  | .br => rfl
  | .elem x kids => by simp only [Style.forget, mapN, forgetL_eq kids]
theorem forgetL_eq : ∀ ks : List (Node PLab), Style.forgetL ks = mapNL PLab.att ks
  | [] => rfl
  | k :: ks => by simp only [Style.forgetL, mapNL, forget_eq k, forgetL_eq ks]
end

/-- The facts about the elements of a valid document. -/
theorem valid_facts {d : HDoc} {infos : List RInfo} {n : Node Full} (h : d.validate = .ok (infos, n)) :
    (∀ x ∈ labelsOf n, x.pres.att = x.att ∧ Facts d.head infos x.pres) ∧ ∀ i ∈ infos, Closed d.head.sheet i.styles := by
  obtain ⟨_, h1, _, ⟨pc, h2⟩, h3⟩ := validate_ok h
  have hcl : ∀ i ∈ infos, Closed d.head.sheet i.styles := by
    intro i hi
    obtain ⟨r, _, hr⟩ := forall₂_right (presentRegions_ok h1) i hi
    exact closed_of_refs (presentRegion_ok hr).2
  refine ⟨?_, hcl⟩
  have hf := (present_facts hcl h2 ⟨by simp, by simp⟩).2
  have ha : mapN Full.att n = mapN (fun x => x.pres.att) n := by
    have := Style.present_forget h2
    rw [forget_eq, mapN_mapN] at this
    rw [h3, ← this]
  intro x hx
  refine ⟨att_eq ha x hx, hf _ ?_⟩
  simp only [labels_mapN]
  exact List.mem_map.mpr ⟨x, hx, rfl⟩

end Verif.SegHead
