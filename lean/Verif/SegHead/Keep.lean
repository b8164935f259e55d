import Verif.SegHead.Props

/-!
# Segments and what is shown: lemmas for C56
-/
namespace Verif.SegHead

open Verif.Doc (Node Att Kind Lab Comp Win Env SErr TErr Reach bind_ok Item Leaf Visible items leaves leavesL Overlaps Cov isSpan)
open Verif.Style (Head PLab RInfo RegionDef PErr Name Sheet Specified Computed Refers refStyles ownRegion present presentRegions presentRegion
  IAttr Level Geometry compute chain resolve add levelOf)

/-! ### Styles that agree but for multiRowAlign -/

/-- Specified styles that agree but for `multiRowAlign`. -/
structure SameSpec (a b : Specified) : Prop where
  simple : a.simple = b.simple
  inh : ∀ x, x ≠ .multiRowAlign → a.inh x = b.inh x
  fs : a.fs = b.fs
  lh : a.lh = b.lh

/-- Computed styles that agree but for `multiRowAlign`. -/
structure SameStyle (a b : Computed) : Prop where
  simple : a.simple = b.simple
  inh : ∀ x, x ≠ .multiRowAlign → a.inh x = b.inh x
  fs : a.fs = b.fs
  lh : a.lh = b.lh

/-- Both absent, or both present and related. -/
def Both {α β : Type} (R : α → β → Prop) : Option α → Option β → Prop
  | none, none => True
  | some a, some b => R a b
  | _, _ => False

theorem add_same {a b a' b' : Specified} (h : SameSpec a a') (h' : SameSpec b b') : SameSpec (add a b) (add a' b') where
  simple := by simp only [add, h.simple, h'.simple]
  inh := fun x hx => by simp only [add, h.inh x hx, h'.inh x hx]
  fs := by simp only [add, h.fs, h'.fs]
  lh := by simp only [add, h.lh, h'.lh]

theorem SameSpec.refl (a : Specified) : SameSpec a a := ⟨rfl, fun _ _ => rfl, rfl, rfl⟩

theorem dropMRA_same (a : Specified) : SameSpec a (dropMRA a) where
  simple := rfl
  inh := fun x hx => by simp [dropMRA, hx]
  fs := rfl
  lh := rfl

theorem foldl_same {own own' : Name → Specified} {f : Name → Name} : ∀ {l : List Name} {a a' : Specified},
    (∀ n ∈ l, SameSpec (own n) (own' (f n))) → SameSpec a a' →
    SameSpec (l.foldl (fun s x => add s (own x)) a) ((l.map f).foldl (fun s x => add s (own' x)) a')
  | [], a, a', _, h => h
  | n :: ns, a, a', hn, h => by
    rw [List.map_cons, List.foldl_cons, List.foldl_cons]
    exact foldl_same (fun m hm => hn m (List.mem_cons_of_mem _ hm)) (add_same h (hn n List.mem_cons_self))

theorem resolve_same {own own' : Name → Specified} {f : Name → Name} {l : List Name}
    (h : ∀ n ∈ l, SameSpec (own n) (own' (f n))) : SameSpec (resolve own l) (resolve own' (l.map f)) :=
  foldl_same h (SameSpec.refl _)

/-- What the copy of a style sets. -/
theorem copiedOwn_same {hd : Head} {pre : Option Nat} {n : Name} (h : n ∈ hd.sheet.map (·.1)) :
    SameSpec (hd.own n) (copiedOwn hd pre (newName pre n)) := by
  unfold copiedOwn
  have : hd.sheet.find? (fun s => decide (newName pre s.1 = newName pre n)) = hd.sheet.find? (fun s => decide (s.1 = n)) := by
    congr 1
    funext s
    rw [decide_eq_decide]
    exact ⟨newName_inj pre _ _, fun h => by rw [h]⟩
  rw [this]
  cases hf : hd.sheet.find? (fun s => decide (s.1 = n)) with
  | none =>
    obtain ⟨e, he, e1⟩ := List.mem_map.mp h
    have := List.find?_eq_none.mp hf e he
    simp [e1] at this
  | some s =>
    have := List.find?_some hf
    simp only [decide_eq_true_eq] at this
    simp only [this]
    exact dropMRA_same _

theorem both_bind {α : Type} {p p' : Option Computed} (h : Both SameStyle p p') {f : Computed → Option α}
    (hf : ∀ c c', SameStyle c c' → f c = f c') : p.bind f = p'.bind f := by
  cases p with
  | none => cases p' <;> simp_all [Both]
  | some a =>
    cases p' with
    | none => simp [Both] at h
    | some b => exact hf a b h

/-- Computing keeps the agreement. -/
theorem compute_same {g : Geometry} {s s' : Specified} {p p' r r' : Option Computed} {dfr : Bool} (hs : SameSpec s s')
    (hp : Both SameStyle p p') (hr : Both SameStyle r r') : SameStyle (compute g s p r dfr) (compute g s' p' r' dfr) := by
  have hsome : r.isSome = r'.isSome := by cases r <;> cases r' <;> simp_all [Both]
  have hfs : Style.fontSize g s.fs (p.bind (·.fs)) (r.bind (·.fs)) r.isSome dfr =
      Style.fontSize g s'.fs (p'.bind (·.fs)) (r'.bind (·.fs)) r'.isSome dfr := by
    rw [hs.fs, both_bind hp (fun c c' h => h.fs), both_bind hr (fun c c' h => h.fs), hsome]
  have hlh : ∀ c c', SameStyle c c' → c.realLH = c'.realLH := fun c c' h => by unfold Computed.realLH; rw [h.lh]
  constructor
  · simp only [compute, hs.simple]
  · intro x hx
    have hreal : ∀ c c', SameStyle c c' → c.real x = c'.real x := fun c c' h => by unfold Computed.real; rw [h.inh x hx]
    simp only [compute, Style.inherited, hs.inh x hx, both_bind hp hreal, both_bind hr hreal]
  · exact hfs
  · simp only [compute]
    rw [hfs, hs.lh, both_bind hp hlh, both_bind hr hlh]

/-- Levels of two chains that agree. -/
structure SameLevel (a b : Level) : Prop where
  spec : SameSpec a.spec b.spec
  region : Both SameStyle a.region b.region
  defer : a.defer = b.defer

theorem chain_same {g : Geometry} {ls ls' : List Level} (h : List.Forall₂ SameLevel ls ls') : Both SameStyle (chain g ls) (chain g ls') := by
  unfold chain
  have : ∀ (p p' : Option Computed), Both SameStyle p p' →
      Both SameStyle (ls.foldl (fun parent l => some (compute g l.spec parent l.region l.defer)) p)
        (ls'.foldl (fun parent l => some (compute g l.spec parent l.region l.defer)) p') := by
    induction h with
    | nil => intro p p' hp; exact hp
    | cons h1 _ ih =>
      intro p p' hp
      rw [List.foldl_cons, List.foldl_cons]
      apply ih
      rw [← h1.defer]
      exact compute_same h1.spec hp h1.region
  exact this none none trivial

/-! ### What is cut, by its leaves -/

theorem items_cutL {w : Win} : ∀ (ks : List (Node Full)), items (cutL w ks) = items ks
  | [] => rfl
  | .text s :: ks => by simp [cutL, cut, items, items_cutL ks]
  | .br :: ks => by simp [cutL, cut, items, items_cutL ks]
  | .elem x kids :: ks => by
    rw [cutL]
    cases hc : cut w (.elem x kids) with
    | none => simp [items, items_cutL ks]
    | some c =>
      rw [cut] at hc
      split at hc
      · split at hc
        · cases hc
        · cases hc; simp [items, items_cutL ks]
      · cases hc

theorem items_mapNL {α β : Type} (f : α → β) : ∀ (ks : List (Node α)), items (mapNL f ks) = items ks
  | [] => rfl
  | .text s :: ks => by simp [mapNL, mapN, items, items_mapNL f ks]
  | .br :: ks => by simp [mapNL, mapN, items, items_mapNL f ks]
  | .elem x kids :: ks => by simp [mapNL, mapN, items, items_mapNL f ks]

theorem isSpan_mapNL (ks : List (Node Full)) : (mapNL Full.att ks).any (isSpan Att.kind) = ks.any (isSpan Full.kind) := by
  induction ks with
  | nil => rfl
  | cons k ks ih => cases k <;> simp [mapNL, mapN, isSpan, ih] <;> rfl

theorem cutL_fits {w : Win} {kd : Kind} {ks : List (Node Full)} (h : (mapNL Full.att ks).all (Doc.fits kd) = true) :
    (mapNL Full.att (cutL w ks)).all (Doc.fits kd) = true := by
  rw [List.all_eq_true] at h ⊢
  intro m hm
  rw [mapNL_eq, List.mem_map] at hm
  obtain ⟨c, hc, rfl⟩ := hm
  obtain ⟨k, hk, hck⟩ := mem_cutL hc
  have := h (mapN Full.att k) (by rw [mapNL_eq]; exact List.mem_map_of_mem hk)
  cases k with
  | text s => rw [cut] at hck; cases hck; exact this
  | br => rw [cut] at hck; cases hck; exact this
  | elem x kids =>
    rw [cut] at hck
    split at hck
    · split at hck
      · cases hck
      · cases hck; exact this
    · cases hck

theorem textsOk_mapNL {ks : List (Node Full)} (h : Doc.shapedL (mapNL Full.att ks) = true) : Doc.textsOk (items ks) = true := by
  rw [← items_mapNL Full.att]; exact Doc.textsOk_shaped h

theorem noElem_mapNL {ks : List (Node Full)} (h : ∀ x kk, Node.elem x kk ∉ mapNL Full.att ks) : ∀ x kk, Node.elem x kk ∉ ks := by
  intro x kk hm
  refine h x.att (mapNL Full.att kk) ?_
  rw [mapNL_eq]
  exact List.mem_map.mpr ⟨_, hm, by rw [mapN]⟩

theorem cov_kid {x : Full} {kids : List (Node Full)} (h : Cov (mapN Full.lab (.elem x kids))) {k : Node Full} (hk : k ∈ kids) :
    Cov (mapN Full.lab k) := by
  rw [mapN] at h
  exact h.kid (by rw [mapNL_eq]; exact List.mem_map_of_mem hk)

mutual
theorem cut_leaves {w : Win} : ∀ (n : Node Full), Doc.shaped (mapN Full.att n) = true → Doc.unmixed (mapN Full.att n) = true →
    Cov (mapN Full.lab n) → leavesL Full.kind (cut w n).toList = (leaves Full.kind n).filter (fun l => Overlaps w l.1.comp)
  | .text s, _, _, _ => rfl
  | .br, _, _, _ => rfl
  | .elem x kids, hs, hu, hc => by
    rw [cut]
    by_cases hin : Doc.inSeg w x.comp = true
    · rw [if_pos hin]
      rw [mapN] at hs hu
      rw [Doc.shaped, Bool.and_eq_true] at hs
      rw [Doc.unmixed, Bool.and_eq_true] at hu
      have ih := cutL_leaves (w := w) kids hs.2 hu.2 (fun k hk => cov_kid hc hk)
      have hfit : (mapNL Full.att (cutL w kids)).all (Doc.fits x.kind) = true := cutL_fits hs.1
      have hx : Overlaps w x.comp = true := by rw [← Doc.inSeg_eq]; exact hin
      have htx : Doc.textsOk (items (mapNL Full.att (cutL w kids))) = true := by
        rw [items_mapNL, items_cutL]; exact textsOk_mapNL hs.2
      by_cases hk : x.kind = .p ∨ x.kind = .span
      · rw [Doc.isEmpty_leafy hk htx, items_mapNL, items_cutL, isSpan_mapNL]
        rw [isSpan_mapNL, items_mapNL] at hu
        by_cases hl : kids.any (isSpan Full.kind) = true
        · have hleaf : Leaf Full.kind x kids = false := by simp [Leaf, hl]
          have hvis : Visible (items kids) = false := by
            have := hu.1
            rw [hl] at this
            simpa using this
          rw [leaves, hleaf, hvis]
          simp only [Bool.not_false, Bool.true_and, Bool.false_eq_true, if_false]
          by_cases he : (cutL w kids).any (isSpan Full.kind) = true
          · have hleaf' : Leaf Full.kind x (cutL w kids) = false := by simp [Leaf, he]
            rw [he]
            simp only [Bool.not_true, Bool.false_eq_true, if_false, Option.toList, leavesL, leaves, hleaf', List.append_nil]
            exact ih
          · have he : (cutL w kids).any (isSpan Full.kind) = false := by simpa using he
            rw [he]
            simp only [Bool.not_false, if_true, Option.toList, leavesL]
            rw [← ih, Doc.leavesL_noElem]
            exact noElem_mapNL (Doc.noElem_of_noSpan hk hfit (by rw [isSpan_mapNL]; exact he))
        · have hl : kids.any (isSpan Full.kind) = false := by simpa using hl
          have hleaf : Leaf Full.kind x kids = true := by
            rcases hk with hk | hk <;> simp [Leaf, hl, hk]
          have hne := noElem_mapNL (Doc.noElem_of_noSpan hk hs.1 (by rw [isSpan_mapNL]; exact hl))
          have hns : (cutL w kids).any (isSpan Full.kind) = false := by
            rw [Bool.eq_false_iff]
            intro hc
            obtain ⟨m, hm, hms⟩ := List.any_eq_true.mp hc
            obtain ⟨k, hk', hck⟩ := mem_cutL hm
            cases m with
            | text s => simp [isSpan] at hms
            | br => simp [isSpan] at hms
            | elem y ys =>
              obtain ⟨kk, rfl, _⟩ := cut_elem hck
              exact hne _ _ hk'
          have hleaf' : Leaf Full.kind x (cutL w kids) = true := by
            rcases hk with hk | hk <;> simp [Leaf, hns, hk]
          rw [leaves, if_pos hleaf, hns]
          by_cases hv : Visible (items kids) = true
          · rw [hv]
            simp only [Bool.not_true, Bool.false_and, Bool.false_eq_true, if_false, Option.toList, leavesL, leaves, hleaf',
              items_cutL, hv, if_true, List.append_nil]
            simp [hx]
          · have hv : Visible (items kids) = false := by simpa using hv
            rw [hv]
            simp [leavesL]
      · have hleaf : ∀ ks, Leaf Full.kind x ks = false := by
          intro ks
          rw [not_or] at hk
          simp [Leaf, hk.1, hk.2]
        rw [leaves, hleaf kids]
        simp only [Bool.false_eq_true, if_false]
        split
        · rename_i he
          simp only [Option.toList, leavesL]
          rw [← ih, Doc.leavesL_noElem]
          have hdiv : x.kind = .div := by
            cases hkk : x.kind with
            | div => rfl
            | body => rw [hkk] at he; simp [Doc.isEmpty] at he
            | p => exact absurd (.inl hkk) hk
            | span => exact absurd (.inr hkk) hk
          rw [hdiv] at he hfit
          exact noElem_mapNL (Doc.noElem_of_emptyDiv hfit he)
        · simp only [Option.toList, leavesL, leaves, hleaf, List.append_nil, Bool.false_eq_true, if_false]
          exact ih
    · rw [if_neg hin]
      simp only [Option.toList, leavesL]
      rw [eq_comm, List.filter_eq_nil_iff]
      intro l hlm ho
      obtain ⟨anc, ks, hr, _⟩ := Doc.mem_leaves _ l hlm
      apply hin
      rw [Doc.inSeg_eq]
      have hr' := reach_mapN (f := Full.lab) hr
      rw [mapN] at hc hr'
      rw [mapN] at hr'
      exact (hc.root hr' l.1.lab _ rfl).overlaps ho
theorem cutL_leaves {w : Win} : ∀ (ns : List (Node Full)), Doc.shapedL (mapNL Full.att ns) = true →
    Doc.unmixedL (mapNL Full.att ns) = true → (∀ k ∈ ns, Cov (mapN Full.lab k)) →
    leavesL Full.kind (cutL w ns) = (leavesL Full.kind ns).filter (fun l => Overlaps w l.1.comp)
  | [], _, _, _ => rfl
  | k :: ks, hs, hu, h => by
    rw [mapNL, Doc.shapedL, Bool.and_eq_true] at hs
    rw [mapNL, Doc.unmixedL, Bool.and_eq_true] at hu
    have happ : ∀ a b : List (Node Full), leavesL Full.kind (a ++ b) = leavesL Full.kind a ++ leavesL Full.kind b := by
      intro a b
      induction a with
      | nil => rfl
      | cons q qs ih => simp [leavesL, ih]
    rw [cutL, happ, leavesL, List.filter_append, cut_leaves k hs.1 hu.1 (h k List.mem_cons_self),
      cutL_leaves ks hs.2 hu.2 (fun k' hk' => h k' (List.mem_cons_of_mem _ hk'))]
end

/-! ### The copy, validated on its own -/

mutual
/-- The validated copy `m` of `c` shows the same in the same way. -/
def SameTree (pre : Option Nat) : Node Full → Node Full → Prop
  | .text s, .text t => s = t
  | .br, .br => True
  | .elem x ks, .elem y ms => y.kind = x.kind ∧ SameStyle x.pres.comp y.pres.comp ∧
      y.pres.region.map (·.id) = (x.pres.region.map (·.id)).map (newName pre) ∧ SameTreeL pre ks ms
  | _, _ => False
def SameTreeL (pre : Option Nat) : List (Node Full) → List (Node Full) → Prop
  | [], [] => True
  | k :: ks, m :: ms => SameTree pre k m ∧ SameTreeL pre ks ms
  | _, _ => False
end

/-- How a shown leaf appears in a segment. -/
def SameLeaf (pre : Option Nat) (l s : Full × List Item) : Prop :=
  s.2 = l.2 ∧ SameStyle l.1.pres.comp s.1.pres.comp ∧
    s.1.pres.region.map (·.id) = (l.1.pres.region.map (·.id)).map (newName pre)

theorem sameTree_items {pre : Option Nat} : ∀ {ks ms : List (Node Full)}, SameTreeL pre ks ms →
    items ms = items ks ∧ ms.any (isSpan Full.kind) = ks.any (isSpan Full.kind)
  | [], [], _ => ⟨rfl, rfl⟩
  | k :: ks, m :: ms, h => by
    rw [SameTreeL] at h
    obtain ⟨i1, i2⟩ := sameTree_items h.2
    have h1 := h.1
    rw [List.any_cons, List.any_cons, i2]
    cases k <;> cases m <;> simp [SameTree] at h1
    · simp [items, i1, h1, isSpan]
    · simp [items, i1, isSpan]
    · simp [items, i1, isSpan, h1]
  | [], _ :: _, h => by simp [SameTreeL] at h
  | _ :: _, [], h => by simp [SameTreeL] at h

mutual
theorem sameTree_leaves {pre : Option Nat} : ∀ {c m : Node Full}, SameTree pre c m →
    List.Forall₂ (SameLeaf pre) (leaves Full.kind c) (leaves Full.kind m)
  | .text s, .text t, _ => .nil
  | .br, .br, _ => .nil
  | .elem x ks, .elem y ms, h => by
    rw [SameTree] at h
    obtain ⟨h1, h2, h3, h4⟩ := h
    obtain ⟨i1, i2⟩ := sameTree_items h4
    rw [leaves, leaves]
    have hl : Leaf Full.kind y ms = Leaf Full.kind x ks := by simp only [Leaf, h1, i2]
    rw [hl, i1]
    split
    · split
      · exact .cons ⟨rfl, h2, h3⟩ .nil
      · exact .nil
    · exact sameTreeL_leaves h4
  | .text s, .br, h => by simp [SameTree] at h
  | .text s, .elem _ _, h => by simp [SameTree] at h
  | .br, .text _, h => by simp [SameTree] at h
  | .br, .elem _ _, h => by simp [SameTree] at h
  | .elem _ _, .text _, h => by simp [SameTree] at h
  | .elem _ _, .br, h => by simp [SameTree] at h
theorem sameTreeL_leaves {pre : Option Nat} : ∀ {cs ms : List (Node Full)}, SameTreeL pre cs ms →
    List.Forall₂ (SameLeaf pre) (leavesL Full.kind cs) (leavesL Full.kind ms)
  | [], [], _ => .nil
  | c :: cs, m :: ms, h => by
    rw [SameTreeL] at h
    rw [leavesL, leavesL]
    exact Doc.forall₂_append (sameTree_leaves h.1) (sameTreeL_leaves h.2)
  | [], _ :: _, h => by simp [SameTreeL] at h
  | _ :: _, [], h => by simp [SameTreeL] at h
end

section
variable {d : HDoc} {infos : List RInfo} {n : Node Full} {w : Win} {pre : Option Nat}

/-- The copy of a region computes to the same. -/
theorem region_same (h : d.validate = .ok (infos, n)) {s : HDoc} (hs : segmentOf d w pre n = .ok s) {infos' : List RInfo}
    (hi' : presentRegions s.head s.head.regions = .ok infos') (hn' : s.ids.Nodup) {i i' : RInfo} (hi : i ∈ infos) (hii : i' ∈ infos')
    (hid : i'.id = newName pre i.id) : SameStyle i.comp i'.comp := by
  obtain ⟨r', hr', hp'⟩ := forall₂_right (presentRegions_ok hi') i' hii
  have hr0 := hr'
  rw [(segmentOf_ok hs).2.2.1] at hr'
  obtain ⟨r, hr, rfl⟩ := List.mem_map.mp hr'
  obtain ⟨hr, hcu⟩ := List.mem_filter.mp hr
  simp only [decide_eq_true_eq] at hcu
  obtain ⟨j, hj, e1, e2, hp⟩ := info_of_region h hr
  have e3 : i'.id = newName pre r.id := (presentRegion_ok hp').1
  have e4 : r.id = i.id := newName_inj pre _ _ (by rw [← e3, hid])
  have hij := infos_unique h hj hi (by rw [e1, e4])
  subst hij
  have hst := seg_region h hs hr hcu.1 hcu.2 hj e1
  unfold presentRegion at hp hp'
  obtain ⟨l, h1, hp⟩ := bind_ok hp
  obtain ⟨l', h1', hp'⟩ := bind_ok hp'
  cases hp
  cases hp'
  have hst' : refStyles s.head ((newRegion pre r).refs) = .ok (l.map (newName pre)) := hst
  rw [hst'] at h1'
  injection h1' with h1'
  subst h1'
  simp only [Style.regionStyle, (segmentOf_ok hs).2.2.2.1]
  refine compute_same (add_same (SameSpec.refl _) ?_) trivial trivial
  rw [(segmentOf_ok hs).2.1]
  exact resolve_same (fun m hm => copiedOwn_same (Style.find_mem ((refStyles_closed h1).2.2 m hm)))

mutual
theorem copied_unnested {v : Env} : ∀ {c : Node Full} {m : Node Att}, Copied v c m →
    (Style.noRegions (mapN Full.att c) = true → Style.noRegions m = true) ∧ (Style.unnested (mapN Full.att c) = true → Style.unnested m = true)
  | .text s, .text t, _ => ⟨fun _ => rfl, fun _ => rfl⟩
  | .br, .br, _ => ⟨fun _ => rfl, fun _ => rfl⟩
  | .elem x ks, .elem b ms, h => by
    rw [Copied] at h
    obtain ⟨i1, i2⟩ := copiedL_unnested h.2.2.2.2
    have ho : (ownRegion b).isSome = (ownRegion x.att).isSome := by
      have := own_copied (b := b) (a := x.att) h.1 h.2.2.1
      cases hx : ownRegion x.att with
      | none => rw [hx] at this; simp only [Doc.copyRegion, Except.ok.injEq] at this; rw [← this]
      | some r =>
        rw [hx] at this
        simp only [Doc.copyRegion] at this
        split at this
        · cases this
        · injection this with this; rw [← this]; rfl
    rw [mapN, Style.noRegions, Style.noRegions, Style.unnested, Style.unnested, ho]
    refine ⟨?_, ?_⟩
    · intro h0
      rw [Bool.and_eq_true] at h0 ⊢
      refine ⟨?_, i1 h0.2⟩
      rw [Option.isNone_iff_eq_none] at h0 ⊢
      cases hb : ownRegion b with
      | none => rfl
      | some r => rw [hb, h0.1] at ho; simp at ho
    · intro h0
      split
      · rename_i h1; rw [if_pos h1] at h0; exact i1 h0
      · rename_i h1; rw [if_neg h1] at h0; exact i2 h0
  | .text s, .br, h => by simp [Copied] at h
  | .text s, .elem _ _, h => by simp [Copied] at h
  | .br, .text _, h => by simp [Copied] at h
  | .br, .elem _ _, h => by simp [Copied] at h
  | .elem _ _, .text _, h => by simp [Copied] at h
  | .elem _ _, .br, h => by simp [Copied] at h
theorem copiedL_unnested {v : Env} : ∀ {cs : List (Node Full)} {ms : List (Node Att)}, CopiedL v cs ms →
    (Style.noRegionsL (mapNL Full.att cs) = true → Style.noRegionsL ms = true) ∧ (Style.unnestedL (mapNL Full.att cs) = true → Style.unnestedL ms = true)
  | [], [], _ => ⟨fun _ => rfl, fun _ => rfl⟩
  | c :: cs, m :: ms, h => by
    rw [CopiedL] at h
    obtain ⟨i1, i2⟩ := copied_unnested h.1
    obtain ⟨j1, j2⟩ := copiedL_unnested h.2
    rw [mapNL, Style.noRegionsL, Style.noRegionsL, Style.unnestedL, Style.unnestedL]
    refine ⟨fun h0 => ?_, fun h0 => ?_⟩
    · rw [Bool.and_eq_true] at h0 ⊢; exact ⟨i1 h0.1, j1 h0.2⟩
    · rw [Bool.and_eq_true] at h0 ⊢; exact ⟨i2 h0.1, j2 h0.2⟩
  | [], _ :: _, h => by simp [CopiedL] at h
  | _ :: _, [], h => by simp [CopiedL] at h
end

mutual
theorem cut_noRegions {w : Win} : ∀ (n : Node Full),
    (Style.noRegions (mapN Full.att n) = true → Style.noRegionsL (mapNL Full.att (cut w n).toList) = true) ∧
    (Style.unnested (mapN Full.att n) = true → Style.unnestedL (mapNL Full.att (cut w n).toList) = true)
  | .text s => by simp [cut, mapNL, mapN, Style.noRegionsL, Style.noRegions, Style.unnestedL, Style.unnested]
  | .br => by simp [cut, mapNL, mapN, Style.noRegionsL, Style.noRegions, Style.unnestedL, Style.unnested]
  | .elem x kids => by
    obtain ⟨i1, i2⟩ := cutL_noRegions (w := w) kids
    rw [cut]
    split
    · split
      · exact ⟨fun _ => rfl, fun _ => rfl⟩
      · simp only [Option.toList, mapNL, mapN, Style.noRegionsL, Style.unnestedL, Bool.and_true]
        rw [Style.noRegions, Style.noRegions, Style.unnested, Style.unnested]
        refine ⟨fun h0 => ?_, fun h0 => ?_⟩
        · rw [Bool.and_eq_true] at h0 ⊢; exact ⟨h0.1, i1 h0.2⟩
        · split
          · rename_i h1; rw [if_pos h1] at h0; exact i1 h0
          · rename_i h1; rw [if_neg h1] at h0; exact i2 h0
    · exact ⟨fun _ => rfl, fun _ => rfl⟩
theorem cutL_noRegions {w : Win} : ∀ (ks : List (Node Full)),
    (Style.noRegionsL (mapNL Full.att ks) = true → Style.noRegionsL (mapNL Full.att (cutL w ks)) = true) ∧
    (Style.unnestedL (mapNL Full.att ks) = true → Style.unnestedL (mapNL Full.att (cutL w ks)) = true)
  | [] => ⟨fun _ => rfl, fun _ => rfl⟩
  | k :: ks => by
    obtain ⟨i1, i2⟩ := cut_noRegions (w := w) k
    obtain ⟨j1, j2⟩ := cutL_noRegions (w := w) ks
    have ha : ∀ a b : List (Node Att), Style.noRegionsL (a ++ b) = (Style.noRegionsL a && Style.noRegionsL b) := by
      intro a b
      induction a with
      | nil => rfl
      | cons q qs ih => simp [Style.noRegionsL, ih, Bool.and_assoc]
    have hb : ∀ a b : List (Node Att), Style.unnestedL (a ++ b) = (Style.unnestedL a && Style.unnestedL b) := by
      intro a b
      induction a with
      | nil => rfl
      | cons q qs ih => simp [Style.unnestedL, ih, Bool.and_assoc]
    rw [cutL, mapNL_append, ha, hb, mapNL, Style.noRegionsL, Style.unnestedL]
    refine ⟨fun h0 => ?_, fun h0 => ?_⟩
    · rw [Bool.and_eq_true] at h0 ⊢; exact ⟨i1 h0.1, j1 h0.2⟩
    · rw [Bool.and_eq_true] at h0 ⊢; exact ⟨i2 h0.1, j2 h0.2⟩
end

/-- What an element and its copy have in common, as far as what is inside is concerned. -/
def NodeRel (pre : Option Nat) (x y : Full) : Prop :=
  SameLevel (levelOf x.pres) (levelOf y.pres) ∧ ownRegion y.pres.att = (ownRegion x.pres.att).map (newName pre)

theorem nearest_map {pre : Option Nat} {l l' : List Full} (h : List.Forall₂ (NodeRel pre) l l') :
    Style.nearest (l'.map (fun x => x.pres.att)) = (Style.nearest (l.map (fun x => x.pres.att))).map (newName pre) := by
  induction h with
  | nil => rfl
  | cons h1 _ ih =>
    simp only [List.map_cons, Style.nearest]
    rw [ih, h1.2]
    cases Style.nearest _ <;> simp

theorem levels_map {pre : Option Nat} {l l' : List Full} (h : List.Forall₂ (NodeRel pre) l l') :
    List.Forall₂ SameLevel (l.map (fun x => levelOf x.pres)) (l'.map (fun x => levelOf x.pres)) := by
  induction h with
  | nil => exact .nil
  | cons h1 _ ih => exact .cons h1.1 ih

/-- An element and its copy. -/
theorem same_elem (h : d.validate = .ok (infos, n)) {s : HDoc} (hs : segmentOf d w pre n = .ok s) {infos' : List RInfo} {m0 : Node Full}
    (h' : s.validate = .ok (infos', m0)) (hsh : Doc.shaped d.body = true) (hun : Style.unnested d.body = true)
    (hsh' : Doc.shaped s.body = true) (hun' : Style.unnested s.body = true) {c0 : Node Full} (hc0 : cut w n = some c0)
    {anc anc' : List Full} {x y : Full} {ks ms : List (Node Full)} (hr : Reach c0 anc (.elem x ks)) (hr' : Reach m0 anc' (.elem y ms))
    (hcopy : CopyOf (segEnv d w pre n) x y.att) (hanc : List.Forall₂ (NodeRel pre) anc anc') :
    NodeRel pre x y ∧ SameStyle x.pres.comp y.pres.comp ∧
      y.pres.region.map (·.id) = (x.pres.region.map (·.id)).map (newName pre) := by
  obtain ⟨n0, hn0, hcn0⟩ := cut_reach hc0 hr
  obtain ⟨kids, rfl, _⟩ := cut_elem hcn0
  obtain ⟨x1, x2, x3⟩ := valid_every h hsh hun hn0
  obtain ⟨y1, y2, y3⟩ := valid_every h' hsh' hun' hr'
  have hx : x ∈ kept w n := by rw [kept_of_cut hc0]; exact (labels_of_reach hr).2 x (by simp [labelsOf])
  obtain ⟨ex, fx⟩ := (valid_facts h).1 x (kept_labels hx).1
  obtain ⟨ey, fy⟩ := (valid_facts h').1 y ((labels_of_reach hr').2 y (by simp [labelsOf]))
  obtain ⟨_, hown, href, _⟩ := seg_copy h hs hx hcopy
  have hrefd : y.pres.referenced = x.pres.referenced.map (newName pre) := by
    have := y2.1
    rw [ey, href] at this
    injection this with this
    exact this.symm
  have hspec : SameSpec x.pres.spec y.pres.spec := by
    rw [x2.2.1, y2.2.1, hrefd, (segmentOf_ok hs).2.1]
    exact resolve_same (fun m hm => copiedOwn_same (Style.find_mem ((refStyles_closed x2.1).2.2 m hm)))
  have hown' : ownRegion y.pres.att = (ownRegion x.pres.att).map (newName pre) := by rw [ex, ey]; exact hown
  have hreg : y.pres.region.map (·.id) = (x.pres.region.map (·.id)).map (newName pre) := by
    unfold Style.RegionIsNearest at x1 y1
    rw [x1, y1, List.map_append, List.map_append, List.map_cons, List.map_nil, List.map_cons, List.map_nil, Style.nearest_append,
      Style.nearest_append, hown']
    have := nearest_map hanc
    simp only [List.map_map] at this ⊢
    have h1 : Style.nearest (List.map ((fun x => x.att) ∘ Full.pres) anc') =
        (Style.nearest (List.map ((fun x => x.att) ∘ Full.pres) anc)).map (newName pre) := this
    rw [h1]
    cases ownRegion x.pres.att <;> simp
  have hregc : Both SameStyle (x.pres.region.map (·.comp)) (y.pres.region.map (·.comp)) := by
    cases hxr : x.pres.region with
    | none =>
      cases hyr : y.pres.region with
      | none => trivial
      | some j => rw [hxr, hyr] at hreg; simp at hreg
    | some i =>
      cases hyr : y.pres.region with
      | none => rw [hxr, hyr] at hreg; simp at hreg
      | some j =>
        rw [hxr, hyr] at hreg
        simp only [Option.map_some, Option.some.injEq] at hreg
        exact region_same h hs (validate_ok h').2.1 (validate_ok h').1 (fx.known i hxr) (fy.known j hyr) hreg
  have hrel : NodeRel pre x y := by
    refine ⟨⟨hspec, hregc, ?_⟩, hown'⟩
    show Style.defers x.pres.att.kind = Style.defers y.pres.att.kind
    rw [ex, ey, hcopy.1]
    rfl
  refine ⟨hrel, ?_, hreg⟩
  have hch := chain_same (g := d.head.geo) (levels_map (Doc.forall₂_append hanc (.cons hrel .nil)))
  unfold Style.FromChain at x3 y3
  rw [(segmentOf_ok hs).2.2.2.1] at y3
  have e1 : (anc.map Full.pres ++ [x.pres]).map levelOf = (anc ++ [x]).map (fun x => levelOf x.pres) := by
    simp
  have e2 : (anc'.map Full.pres ++ [y.pres]).map levelOf = (anc' ++ [y]).map (fun x => levelOf x.pres) := by
    simp
  rw [e1] at x3
  rw [e2] at y3
  rw [x3, y3] at hch
  exact hch

mutual
theorem same_tree (h : d.validate = .ok (infos, n)) {s : HDoc} (hs : segmentOf d w pre n = .ok s) {infos' : List RInfo} {m0 : Node Full}
    (h' : s.validate = .ok (infos', m0)) (hsh : Doc.shaped d.body = true) (hun : Style.unnested d.body = true)
    (hsh' : Doc.shaped s.body = true) (hun' : Style.unnested s.body = true) {c0 : Node Full} (hc0 : cut w n = some c0) :
    ∀ (c m : Node Full) (anc anc' : List Full), Reach c0 anc c → Reach m0 anc' m → Copied (segEnv d w pre n) c (mapN Full.att m) →
    List.Forall₂ (NodeRel pre) anc anc' → SameTree pre c m
  | .text s, .text t, _, _, _, _, hc, _ => by rw [mapN, Copied] at hc; exact hc
  | .br, .br, _, _, _, _, _, _ => trivial
  | .elem x ks, .elem y ms, anc, anc', hr, hr', hc, hanc => by
    rw [mapN, Copied] at hc
    obtain ⟨h1, h2, h3⟩ := same_elem h hs h' hsh hun hsh' hun' hc0 hr hr' ⟨hc.1, hc.2.1, hc.2.2.1, hc.2.2.2.1⟩ hanc
    rw [SameTree]
    exact ⟨hc.1, h2, h3, same_treeL h hs h' hsh hun hsh' hun' hc0 ks ms (anc ++ [x]) (anc' ++ [y]) (fun k hk => .step hr hk)
      (fun k hk => .step hr' hk) hc.2.2.2.2 (Doc.forall₂_append hanc (.cons h1 .nil))⟩
  | .text s, .br, _, _, _, _, hc, _ => by simp [mapN, Copied] at hc
  | .text s, .elem _ _, _, _, _, _, hc, _ => by simp [mapN, Copied] at hc
  | .br, .text _, _, _, _, _, hc, _ => by simp [mapN, Copied] at hc
  | .br, .elem _ _, _, _, _, _, hc, _ => by simp [mapN, Copied] at hc
  | .elem _ _, .text _, _, _, _, _, hc, _ => by simp [mapN, Copied] at hc
  | .elem _ _, .br, _, _, _, _, hc, _ => by simp [mapN, Copied] at hc
theorem same_treeL (h : d.validate = .ok (infos, n)) {s : HDoc} (hs : segmentOf d w pre n = .ok s) {infos' : List RInfo} {m0 : Node Full}
    (h' : s.validate = .ok (infos', m0)) (hsh : Doc.shaped d.body = true) (hun : Style.unnested d.body = true)
    (hsh' : Doc.shaped s.body = true) (hun' : Style.unnested s.body = true) {c0 : Node Full} (hc0 : cut w n = some c0) :
    ∀ (cs ms : List (Node Full)) (anc anc' : List Full), (∀ c ∈ cs, Reach c0 anc c) → (∀ m ∈ ms, Reach m0 anc' m) →
    CopiedL (segEnv d w pre n) cs (mapNL Full.att ms) →
    List.Forall₂ (NodeRel pre) anc anc' → SameTreeL pre cs ms
  | [], [], _, _, _, _, _, _ => trivial
  | c :: cs, m :: ms, anc, anc', hr, hr', hc, hanc => by
    rw [mapNL, CopiedL] at hc
    exact ⟨same_tree h hs h' hsh hun hsh' hun' hc0 c m anc anc' (hr c List.mem_cons_self) (hr' m List.mem_cons_self) hc.1 hanc,
      same_treeL h hs h' hsh hun hsh' hun' hc0 cs ms anc anc' (fun k hk => hr k (List.mem_cons_of_mem _ hk))
        (fun k hk => hr' k (List.mem_cons_of_mem _ hk)) hc.2 hanc⟩
  | [], _ :: _, _, _, _, _, hc, _ => by simp [mapNL, CopiedL] at hc
  | _ :: _, [], _, _, _, _, hc, _ => by simp [mapNL, CopiedL] at hc
end

end

end Verif.SegHead
