import Verif.SegHead.Closure

/-!
# Segments with their heads

C54: what is extracted is a valid document, in which every reference can be followed.
-/
namespace Verif.SegHead

open Verif.Doc (Node Att Kind Lab Comp Win Env SErr TErr Reach bind_ok)
open Verif.Style (Head PLab RInfo RegionDef PErr Name Sheet Specified Computed Refers refStyles ownRegion present presentRegions)

/-- All references of a document name something in its head: those of its elements to styles and regions, those of
its regions to styles, those of its styles to styles. -/
structure Resolves (s : HDoc) : Prop where
  styles : ∀ a ∈ labelsOf s.body, ∀ n ∈ a.style, n ∈ s.head.sheet.map (·.1)
  regions : ∀ a ∈ labelsOf s.body, ∀ r, ownRegion a = some r → r ∈ s.head.regions.map (·.id)
  ofRegions : ∀ r ∈ s.head.regions, ∀ n ∈ r.refs, n ∈ s.head.sheet.map (·.1)
  ofStyles : ∀ e ∈ s.head.sheet, ∀ n ∈ e.2, n ∈ s.head.sheet.map (·.1)

theorem segment_valid {d : HDoc} {infos : List RInfo} {n : Node Full} {w : Win} {pre : Option Nat} (h : d.validate = .ok (infos, n))
    (hb : ∃ a kids, d.body = .elem a kids) {s : HDoc} (hs : segmentOf d w pre n = .ok s) : ∃ r, s.validate = .ok r := by
  obtain ⟨l, hl, hids⟩ := seg_ids h hb hs
  obtain ⟨infos', hi⟩ := seg_regions h hs
  obtain ⟨⟨pc, p⟩, hp⟩ := seg_present h hb hs hi
  obtain ⟨m, hm⟩ := validate_of (by rw [hids]; exact nodup_map (newName_inj pre) (hl.nodup (validate_ok h).1)) hi hp
  exact ⟨_, hm⟩

theorem extract_ok {d s : HDoc} {w : Win} {pre : Option Nat} (h : d.extract w pre = .ok s) :
    ∃ infos n, d.validate = .ok (infos, n) ∧ segmentOf d w pre n = .ok s := by
  unfold HDoc.extract at h
  cases hv : d.validate with
  | error e => rw [hv] at h; cases h
  | ok r =>
    obtain ⟨infos, n⟩ := r
    rw [hv] at h
    simp only at h
    cases hs : segmentOf d w pre n with
    | error e => rw [hs] at h; cases h
    | ok s' =>
      rw [hs] at h
      simp only at h
      refine ⟨infos, n, rfl, ?_⟩
      split at h <;> cases h
      exact hs

theorem extract_of {d s : HDoc} {w : Win} {pre : Option Nat} {infos : List RInfo} {n : Node Full} (h : d.validate = .ok (infos, n))
    (hb : ∃ a kids, d.body = .elem a kids) (hs : segmentOf d w pre n = .ok s) : d.extract w pre = .ok s := by
  obtain ⟨r, hr⟩ := segment_valid h hb hs
  unfold HDoc.extract
  rw [h]
  simp only
  rw [hs]
  simp only
  rw [hr]

/-- **C54**: a segment that could be cut out of a valid document is itself a valid document: extraction never fails
because of what it made. -/
theorem C54_segment_is_valid (d : HDoc) (hb : ∃ a kids, d.body = .elem a kids) (w : Win) (pre : Option Nat) :
    (∀ e, d.extract w pre ≠ .error (.result e)) ∧ ∀ s, d.extract w pre = .ok s → ∃ r, s.validate = .ok r := by
  constructor
  · intro e he
    unfold HDoc.extract at he
    cases hv : d.validate with
    | error e' => rw [hv] at he; cases he
    | ok r =>
      obtain ⟨infos, n⟩ := r
      cases hs : segmentOf d w pre n with
      | error e' => rw [hv] at he; simp only at he; rw [hs] at he; cases he
      | ok s =>
        have := extract_of hv hb hs
        unfold HDoc.extract at this
        rw [this] at he
        cases he
  · intro s hs
    obtain ⟨infos, n, hv, hs⟩ := extract_ok hs
    exact segment_valid hv hb hs

theorem find_of_mem {sh : Sheet} (hn : (sh.map (·.1)).Nodup) {e : Name × List Name} (he : e ∈ sh) : Style.find sh e.1 = some e.2 := by
  unfold Style.find
  induction sh with
  | nil => simp at he
  | cons a as ih =>
    rw [List.map_cons, List.nodup_cons] at hn
    rw [List.find?_cons]
    rcases List.mem_cons.mp he with h | h
    · simp [h]
    · have : a.1 ≠ e.1 := fun h' => hn.1 (h' ▸ List.mem_map.mpr ⟨e, h, rfl⟩)
      simp only [this, decide_false]
      exact ih hn.2 h

theorem part_mem {s : HDoc} {l r : List Name} (hl : refStyles s.head l = .ok r) : ∀ x ∈ l, x ∈ s.head.sheet.map (·.1) :=
  fun x hx => Style.find_mem ((refStyles_closed hl).2.2 x ((refStyles_closed hl).1 x hx))

/-- **C54**: in a segment every reference can be followed: the styles and regions its elements refer to are in its head,
with all that these refer to, and no identifier occurs twice. The identifiers are those of the document, with the prefix
if one was asked for, and its styles, regions and elements are in the order of the document. -/
theorem C54_references_resolve (d : HDoc) (hb : ∃ a kids, d.body = .elem a kids) (w : Win) (pre : Option Nat) (s : HDoc)
    (h : d.extract w pre = .ok s) :
    Resolves s ∧ s.ids.Nodup ∧ ∃ l : List Name, l.Sublist d.ids ∧ s.ids = l.map (newName pre) := by
  obtain ⟨infos, n, hv, hs⟩ := extract_ok h
  obtain ⟨r, hr⟩ := segment_valid hv hb hs
  refine ⟨?_, (validate_ok hr).1, seg_ids hv hb hs⟩
  constructor
  · intro a ha
    obtain ⟨x, hx, _, _, _, href, _⟩ := seg_label hv hb hs ha
    exact part_mem href
  · intro a ha r' hr'
    obtain ⟨x, hx, _, _, hreg, _, hcu⟩ := seg_label hv hb hs ha
    rw [hreg] at hr'
    cases ho : ownRegion x.att with
    | none => rw [ho] at hr'; cases hr'
    | some q =>
      rw [ho] at hr'
      simp only [Option.map_some, Option.some.injEq] at hr'
      subst hr'
      obtain ⟨h1, h2⟩ := hcu q ho
      obtain ⟨rd, hrd, e⟩ := List.mem_map.mp (collRegions_known hv h1)
      rw [(segmentOf_ok hs).2.2.1]
      exact List.mem_map.mpr ⟨newRegion pre rd, List.mem_map.mpr ⟨rd, List.mem_filter.mpr ⟨hrd, by simp [e, h1, h2]⟩, rfl⟩,
        by simp [newRegion, e]⟩
  · intro r' hr'
    have hr0 := hr'
    rw [(segmentOf_ok hs).2.2.1] at hr'
    obtain ⟨q, hq, rfl⟩ := List.mem_map.mp hr'
    obtain ⟨hq, hcu⟩ := List.mem_filter.mp hq
    simp only [decide_eq_true_eq] at hcu
    obtain ⟨i, hi, hid, _⟩ := info_of_region hv hq
    exact part_mem (seg_region hv hs hq hcu.1 hcu.2 hi hid)
  · intro e he m hm
    have he0 := he
    rw [(segmentOf_ok hs).1] at he ⊢
    obtain ⟨q, hq, rfl⟩ := List.mem_map.mp he
    obtain ⟨hq, hcu⟩ := List.mem_filter.mp hq
    simp only [decide_eq_true_eq] at hcu
    obtain ⟨t, ht, rfl⟩ := List.mem_map.mp hm
    have hf : Refers d.head.sheet q.1 t := by
      have hn := (validate_ok hv).1
      unfold HDoc.ids at hn
      rw [List.nodup_append, List.nodup_append] at hn
      exact ⟨_, find_of_mem hn.1.1 hq, ht⟩
    have h1 := (collStyles_closed hv).1 _ hcu.1 t hf
    have h2 := (usedStyles_closed hv).1 _ hcu.2 t hf
    obtain ⟨e, he, e1⟩ := List.mem_map.mp (Style.find_mem ((collStyles_closed hv).2 t h1))
    exact List.mem_map.mpr ⟨_, List.mem_map.mpr ⟨e, List.mem_filter.mpr ⟨he, by simp [e1, h1, h2]⟩, rfl⟩, by simp [e1]⟩

/-- **C54**: a segment has no regions but those its elements refer to. -/
theorem C54_regions_are_used (d : HDoc) (hb : ∃ a kids, d.body = .elem a kids) (w : Win) (pre : Option Nat) (s : HDoc)
    (h : d.extract w pre = .ok s) : ∀ r ∈ s.head.regions, ∃ a ∈ labelsOf s.body, ownRegion a = some r.id := by
  obtain ⟨infos, n, hv, hs⟩ := extract_ok h
  intro r hr
  rw [(segmentOf_ok hs).2.2.1] at hr
  obtain ⟨q, hq, rfl⟩ := List.mem_map.mp hr
  obtain ⟨hq, hcu⟩ := List.mem_filter.mp hq
  simp only [decide_eq_true_eq] at hcu
  obtain ⟨x, hx, ho, _⟩ := usedRegion_info hv hcu.2
  obtain ⟨c, hc, hcop⟩ := seg_body hv hb hs
  rw [kept_of_cut hc] at hx
  obtain ⟨a, ha, hk, _, hreg, _⟩ := forall₂_left (copied_all hcop) x hx
  refine ⟨a, ha, ?_⟩
  have := (copyRegion_seg (own_copied (a := x.att) hk hreg)).1
  rw [this, ho]
  rfl

/-! ## C55: when extraction succeeds -/

/-- Every div in the window that refers to styles or a region has a p or span in it that is in the window. -/
def NoGaps (w : Win) (n : Node Full) : Prop :=
  ∀ anc y ys, Reach n anc (.elem y ys) → y.kind = .div → Doc.Overlaps w y.comp = true →
    y.att.style ≠ [] ∨ (ownRegion y.att).isSome →
    ∃ anc' z zs, Reach (.elem y ys) anc' (.elem z zs) ∧ (z.kind = .p ∨ z.kind = .span) ∧ Doc.Overlaps w z.comp = true

theorem reach_append {α : Type} {a b c : Node α} {l m : List α} (h1 : Reach a l b) (h2 : Reach b m c) : Reach a (l ++ m) c := by
  induction h2 with
  | here => simpa using h1
  | step _ hk ih => rw [← List.append_assoc]; exact .step ih hk

/-- An element inside an element with a region attribute, no two of them nested, has that region. -/
theorem nearest_own : ∀ {anc : List Att} {a : Att} {m : List Att} {r : Name}, ownRegion a = some r →
    (∀ b ∈ m, ownRegion b = none) → Style.nearest (anc ++ a :: m) = some r
  | [], a, m, r, h, hm => by
    have : ∀ m : List Att, (∀ b ∈ m, ownRegion b = none) → Style.nearest m = none := by
      intro m
      induction m with
      | nil => intro _; rfl
      | cons b bs ih => intro hm; rw [Style.nearest, ih (fun c hc => hm c (List.mem_cons_of_mem _ hc)), hm b List.mem_cons_self]; rfl
    rw [List.nil_append, Style.nearest, this m hm, h]
    rfl
  | b :: bs, a, m, r, h, hm => by
    rw [List.cons_append, Style.nearest, nearest_own h hm]
    rfl

theorem noRegionsL_mem : ∀ {ks : List (Node Att)} {k : Node Att}, Style.noRegionsL ks = true → k ∈ ks → Style.noRegions k = true
  | q :: qs, k, h, hk => by
    rw [Style.noRegionsL, Bool.and_eq_true] at h
    rcases List.mem_cons.mp hk with rfl | hk
    · exact h.1
    · exact noRegionsL_mem h.2 hk

theorem unnestedL_mem : ∀ {ks : List (Node Att)} {k : Node Att}, Style.unnestedL ks = true → k ∈ ks → Style.unnested k = true
  | q :: qs, k, h, hk => by
    rw [Style.unnestedL, Bool.and_eq_true] at h
    rcases List.mem_cons.mp hk with rfl | hk
    · exact h.1
    · exact unnestedL_mem h.2 hk

theorem noRegions_reach {n : Node Att} (h : Style.noRegions n = true) {anc : List Att} {m : Node Att} (hr : Reach n anc m) :
    Style.noRegions m = true ∧ ∀ b ∈ anc, ownRegion b = none := by
  induction hr with
  | here => exact ⟨h, by simp⟩
  | step _ hk ih =>
    obtain ⟨i1, i2⟩ := ih
    rw [Style.noRegions, Bool.and_eq_true, Option.isNone_iff_eq_none] at i1
    refine ⟨noRegionsL_mem i1.2 hk, ?_⟩
    intro b hb
    rcases List.mem_append.mp hb with hb | hb
    · exact i2 b hb
    · rw [List.mem_singleton] at hb; rw [hb]; exact i1.1

mutual
theorem noRegions_unnested : ∀ {m : Node Att}, Style.noRegions m = true → Style.unnested m = true
  | .text _, _ => rfl
  | .br, _ => rfl
  | .elem x kids, h => by
    rw [Style.noRegions, Bool.and_eq_true, Option.isNone_iff_eq_none] at h
    rw [Style.unnested, h.1]
    exact noRegionsL_unnested h.2
theorem noRegionsL_unnested : ∀ {ms : List (Node Att)}, Style.noRegionsL ms = true → Style.unnestedL ms = true
  | [], _ => rfl
  | k :: ks, h => by
    rw [Style.noRegionsL, Bool.and_eq_true] at h
    rw [Style.unnestedL, noRegions_unnested h.1, noRegionsL_unnested h.2]
    rfl
end

theorem unnested_reach {n : Node Att} (h : Style.unnested n = true) {anc : List Att} {m : Node Att} (hr : Reach n anc m) :
    Style.unnested m = true := by
  induction hr with
  | here => exact h
  | step _ hk ih =>
    rw [Style.unnested] at ih
    split at ih
    · exact noRegions_unnested (noRegionsL_mem ih hk)
    · exact unnestedL_mem ih hk

/-- All that validation tells of an element and those around it. -/
theorem valid_every {d : HDoc} {infos : List RInfo} {n : Node Full} (h : d.validate = .ok (infos, n)) (hs : Doc.shaped d.body = true)
    (hu : Style.unnested d.body = true) {anc : List Full} {x : Full} {kids : List (Node Full)} (hr : Reach n anc (.elem x kids)) :
    Style.RegionIsNearest (anc.map Full.pres) x.pres ∧ Style.Recorded d.head (anc.map Full.pres) x.pres ∧
      Style.FromChain d.head.geo (anc.map Full.pres) x.pres := by
  obtain ⟨pc, hp⟩ := (validate_ok h).2.2.2.1
  have hr' := reach_mapN (f := Full.pres) hr
  have h1 := Style.every_reach (Style.present_nearest (anc := []) hp hu rfl rfl) hr'
  have h2 := Style.every_reach (Style.present_recorded (anc := []) hp hs (by simp)) hr'
  have h3 := Style.every_reach (Style.present_chain (anc := []) hp rfl) hr'
  rw [mapN, Style.Every] at h1 h2 h3
  exact ⟨h1.1, h2.1, h3.1⟩

theorem reach_below {α : Type} {x : α} {kids : List (Node α)} {anc : List α} {m : Node α} (h : Reach (.elem x kids) anc m) :
    (anc = [] ∧ m = .elem x kids) ∨ ∃ k ∈ kids, ∃ anc', anc = x :: anc' ∧ Reach k anc' m := by
  induction h with
  | here => exact .inl ⟨rfl, rfl⟩
  | @step anc1 y ys k h1 hk ih =>
    rcases ih with ⟨e1, e2⟩ | ⟨k', hk', anc', e, hr⟩
    · subst e1
      cases e2
      exact .inr ⟨k, hk, [], rfl, .here⟩
    · exact .inr ⟨k', hk', anc' ++ [y], by rw [e]; rfl, .step hr hk⟩

/-- What an element in the window refers to was collected. -/
theorem refs_collected {d : HDoc} {infos : List RInfo} {n : Node Full} {w : Win} (h : d.validate = .ok (infos, n))
    (hs : Doc.shaped d.body = true) (hu : Style.unnested d.body = true) (hk : ∃ a kids, d.body = .elem a kids ∧ a.kind = .body)
    (hg : NoGaps w n) {anc : List Full} {y : Full}
    {ys : List (Node Full)} (hr : Reach n anc (.elem y ys)) (ho : Doc.Overlaps w y.comp = true) :
    (∀ s ∈ y.att.style, s ∈ collStyles w n) ∧ ∀ r, ownRegion y.att = some r → r ∈ collRegions w n := by
  obtain ⟨hf, _⟩ := valid_facts h
  have hy : y ∈ labelsOf n := (labels_of_reach hr).2 y (by simp [labelsOf])
  obtain ⟨e, fy⟩ := hf y hy
  have hsub : ∀ s ∈ y.att.style, s ∈ y.pres.referenced := fun s hs => (refStyles_closed fy.refs).1 s (by rw [e]; exact hs)
  have self : y ∈ affected w n → (∀ s ∈ y.att.style, s ∈ collStyles w n) ∧ ∀ r, ownRegion y.att = some r → r ∈ collRegions w n := by
    intro ha
    refine ⟨fun s hs => List.mem_flatMap.mpr ⟨y, ha, fy.sub s (hsub s hs)⟩, ?_⟩
    intro r hr
    obtain ⟨i, hi, hid⟩ := fy.region r (by rw [e]; exact hr)
    exact List.mem_filterMap.mpr ⟨y, ha, by rw [hi]; simp [hid]⟩
  by_cases hps : y.kind = .p ∨ y.kind = .span
  · exact self (affected_timed hy hps ho)
  · cases hkind : y.kind with
    | p => exact absurd (.inl hkind) hps
    | span => exact absurd (.inr hkind) hps
    | div =>
      by_cases hne : y.att.style ≠ [] ∨ (ownRegion y.att).isSome
      · obtain ⟨anc', z, zs, hz, hzk, hzo⟩ := hg anc y ys hr hkind ho hne
        have hrz := reach_append hr hz
        have hza := affected_timed ((labels_of_reach hrz).2 z (by simp [labelsOf])) hzk hzo
        obtain ⟨z1, z2, _⟩ := valid_every h hs hu hrz
        have hyz : y ∈ (anc ++ anc') ++ [z] ∧ ∃ m, anc' ++ [z] = y :: m ∧
            ∃ zs', Reach (.elem y ys) anc' (.elem z zs') := by
          rcases reach_below hz with ⟨e1, e2⟩ | ⟨k, hk, anc1, e1, hr1⟩
          · cases e2
            subst e1
            exact ⟨by simp, [], rfl, _, hz⟩
          · exact ⟨by rw [e1]; simp, anc1 ++ [z], by rw [e1]; rfl, _, hz⟩
        obtain ⟨hmem, m, hm, _⟩ := hyz
        refine ⟨?_, ?_⟩
        · intro s hs'
          refine List.mem_flatMap.mpr ⟨z, hza, z2.2.2.1 y.pres ?_ s (hsub s hs')⟩
          have := List.mem_map_of_mem (f := Full.pres) hmem
          simpa using this
        · intro r hr0
          refine List.mem_filterMap.mpr ⟨z, hza, ?_⟩
          rw [z1]
          have hbn := (validate_ok h).2.2.2.2
          have hra := reach_mapN (f := Full.att) hr
          rw [hbn] at hra
          have hun := unnested_reach hu hra
          rw [mapN, Style.unnested, hr0] at hun
          simp only [Option.isSome_some, if_true] at hun
          have hrest : ∀ b ∈ m.map Full.att, ownRegion b = none := by
            rcases reach_below hz with ⟨e1, e2⟩ | ⟨k, hk, anc1, e1, hr1⟩
            · subst e1
              simp only [List.nil_append, List.cons.injEq] at hm
              rw [← hm.2]; simp
            · rw [e1] at hm
              simp only [List.cons_append, List.cons.injEq, true_and] at hm
              rw [mapNL_eq] at hun
              have hno := noRegionsL_mem hun (List.mem_map_of_mem hk)
              have := noRegions_reach hno (reach_mapN (f := Full.att) hr1)
              rw [← hm]
              intro b hb
              rw [List.map_append] at hb
              rcases List.mem_append.mp hb with hb | hb
              · exact this.2 b hb
              · have h2 := this.1
                rw [mapN, Style.noRegions, Bool.and_eq_true, Option.isNone_iff_eq_none] at h2
                simp only [List.map_cons, List.map_nil, List.mem_singleton] at hb
                rw [hb]; exact h2.1
          have hl : ((anc ++ anc').map Full.pres ++ [z.pres]).map (·.att) = anc.map Full.att ++ y.att :: m.map Full.att := by
            have h1 : (anc ++ anc').map Full.pres ++ [z.pres] = ((anc ++ anc') ++ [z]).map Full.pres := by simp
            have h2 : (anc ++ anc') ++ [z] = anc ++ y :: m := by rw [List.append_assoc, hm]
            have h3 : anc.map Full.att ++ y.att :: m.map Full.att = (anc ++ y :: m).map Full.att := by simp
            rw [h1, h2, h3, List.map_map]
            apply List.map_congr_left
            intro q hq
            refine (hf q ?_).1
            rw [← h2] at hq
            have hall : ∀ q ∈ (anc ++ anc') ++ [z], q ∈ labelsOf n := by
              intro q hq
              rcases List.mem_append.mp hq with hq | hq
              · exact (labels_of_reach hrz).1 q hq
              · rw [List.mem_singleton] at hq; rw [hq]; exact (labels_of_reach hrz).2 z (by simp [labelsOf])
            exact hall q hq
          rw [hl]
          exact nearest_own hr0 hrest
      · simp only [not_or, ne_eq, Decidable.not_not] at hne
        refine ⟨by rw [hne.1]; simp, ?_⟩
        intro r hr0
        rw [hr0] at hne
        simp at hne
    | body =>
      have hroot : y ∈ affected w n := by
        cases hr with
        | here => exact affected_root
        | step h1 hk =>
          have hra := reach_mapN (f := Full.att) h1
          rw [(validate_ok h).2.2.2.2, mapN] at hra
          have hfit := List.all_eq_true.mp (Doc.shaped_reach hs hra).1 (mapN Full.att (.elem y ys)) (by
            rw [mapNL_eq]; exact List.mem_map_of_mem hk)
          have hkb : y.att.kind = .body := hkind
          rw [mapN] at hfit
          simp only [Doc.fits, hkb] at hfit
          split at hfit <;> simp at hfit
      exact self hroot

/-- With a window that may be open at the front the extraction succeeds or there is nothing in the window. -/
theorem extraction_cases (d : HDoc) (hst : d.styling = true) (hla : d.layout = true)
    (hs : Doc.shaped d.body = true) (hu : Style.unnested d.body = true) (hk : ∃ a kids, d.body = .elem a kids ∧ a.kind = .body)
    (infos : List RInfo) (n : Node Full) (hv : d.validate = .ok (infos, n))
    (wb : Option Int) (we : Int) (hlt : ∀ b, wb = some b → b < we) (hbase : d.base = .media ∨ d.base = .clock ∧ we < 100 * 3600000000)
    (hover : ∀ x ∈ rootOf n, Doc.Overlaps ⟨wb, some we⟩ x.comp = true) (hg : NoGaps ⟨wb, some we⟩ n)
    (pre : Option Nat) : (∃ s, d.extract ⟨wb, some we⟩ pre = .ok s) ∨
      ∃ a, Doc.segNode (segEnv d ⟨wb, some we⟩ pre n) (mapN Full.lab n) = .ok (some (.elem a [])) ∧ a.kind = .body := by
  obtain ⟨a, kids0, hb, hkind⟩ := hk
  have hk : ∃ a kids, d.body = .elem a kids ∧ a.kind = .body := ⟨a, kids0, hb, hkind⟩
  obtain ⟨hf, _⟩ := valid_facts hv
  have hbn := (validate_ok hv).2.2.2.2
  cases n with
  | text t => rw [hb] at hbn; simp [mapN] at hbn
  | br => rw [hb] at hbn; simp [mapN] at hbn
  | elem x kids =>
    rw [hb, mapN] at hbn
    simp only [Node.elem.injEq] at hbn
    obtain ⟨sh, hsh⟩ := copySheet_of (d := d) (w := ⟨wb, some we⟩) (pre := pre) (n := .elem x kids)
      (coll := collStyles ⟨wb, some we⟩ (.elem x kids)) (sh := d.head.sheet) (by
        intro e he hc t ht
        have hn := (validate_ok hv).1
        unfold HDoc.ids at hn
        rw [List.nodup_append, List.nodup_append] at hn
        exact (collStyles_closed hv).1 _ hc t ⟨_, find_of_mem hn.1.1 he, ht⟩)
    obtain ⟨rs, hrs⟩ := copyRegions_of (d := d) (w := ⟨wb, some we⟩) (pre := pre) (n := .elem x kids)
      (coll := collRegions ⟨wb, some we⟩ (.elem x kids)) (rs := d.head.regions) (by
        intro r hr hc t ht
        obtain ⟨y, hy, hyr⟩ := List.mem_filterMap.mp hc
        obtain ⟨i, hi, hid, href, _⟩ := info_of_region hv hr
        cases hreg : y.pres.region with
        | none => rw [hreg] at hyr; cases hyr
        | some j =>
          rw [hreg] at hyr
          simp only [Option.map_some, Option.some.injEq] at hyr
          obtain ⟨_, fy⟩ := hf y (affected_labels hy)
          have := infos_unique hv (fy.known j hreg) hi (by rw [hyr, hid])
          subst this
          exact List.mem_flatMap.mpr ⟨y, hy, fy.rstyles j hreg t ((refStyles_closed href).1 t ht)⟩)
    have hkx : x.att.kind = .body := by rw [hbn.1]; exact hkind
    obtain ⟨o, hnode⟩ := Doc.segNode_exists (segEnv d ⟨wb, some we⟩ pre (.elem x kids)) wb we rfl hlt hbase (mapN Full.lab (.elem x kids)) (by
        intro anc y ys hr hz
        obtain ⟨anc0, y0, rfl, hy0, hr0⟩ := reach_of_mapN (f := Full.lab) (root := .elem x kids) hr
        cases y0 with
        | text t => simp [mapN] at hy0
        | br => simp [mapN] at hy0
        | elem y0 ys0 =>
          rw [mapN] at hy0
          simp only [Node.elem.injEq] at hy0
          obtain ⟨rfl, _⟩ := hy0
          obtain ⟨c1, c2⟩ := refs_collected hv hs hu hk hg hr0 (hz y0.lab (by simp))
          refine ⟨fun s hs' => ?_, fun r hhas hr' => ?_⟩
          · have := c1 s hs'
            simp [segEnv, this]
          · have := c2 r ((if_pos hhas).trans hr')
            simp [segEnv, this])
    rw [mapN] at hnode
    rcases Doc.segment_of_node hnode hkx (hover x (by simp [rootOf])) with ⟨body, hbody⟩ | ⟨a', ho, ha'⟩
    · left
      have : ∃ s, segmentOf d ⟨wb, some we⟩ pre (.elem x kids) = .ok s := by
        unfold segmentOf
        simp only [mapN, hsh, hrs, hbody, bind, Except.bind, hst, hla]
        exact ⟨_, rfl⟩
      obtain ⟨s, hs'⟩ := this
      exact ⟨s, extract_of hv ⟨a, kids0, hb⟩ hs'⟩
    · right
      refine ⟨a', ?_, ha'⟩
      rw [mapN, hnode, ho]

/-- **C55** (partial): a segment can be cut out of every valid document with a styling and a layout in its head, in which no
element with a region attribute lies inside another one, for a window `[wb, we)` with `wb < we` (below a hundred hours
on a clock) that the body overlaps, if every div in the window that refers to a style or region has a p or span in the
window in it.

Missing: without these conditions it is false, see `C55_false_gap`, `C55_false_nested_regions` and `C55_false_no_styling`. -/
theorem C55_extraction_succeeds_partial (d : HDoc) (hst : d.styling = true) (hla : d.layout = true)
    (hs : Doc.shaped d.body = true) (hu : Style.unnested d.body = true) (hk : ∃ a kids, d.body = .elem a kids ∧ a.kind = .body)
    (infos : List RInfo) (n : Node Full) (hv : d.validate = .ok (infos, n))
    (wb we : Int) (hlt : wb < we) (hbase : d.base = .media ∨ d.base = .clock ∧ we < 100 * 3600000000)
    (hover : ∀ x ∈ rootOf n, Doc.Overlaps ⟨some wb, some we⟩ x.comp = true) (hg : NoGaps ⟨some wb, some we⟩ n)
    (pre : Option Nat) : ∃ s, d.extract ⟨some wb, some we⟩ pre = .ok s := by
  obtain ⟨a, kids0, hb, hkind⟩ := hk
  have hk : ∃ a kids, d.body = .elem a kids ∧ a.kind = .body := ⟨a, kids0, hb, hkind⟩
  obtain ⟨hf, _⟩ := valid_facts hv
  have hbn := (validate_ok hv).2.2.2.2
  cases n with
  | text t => rw [hb] at hbn; simp [mapN] at hbn
  | br => rw [hb] at hbn; simp [mapN] at hbn
  | elem x kids =>
    rw [hb, mapN] at hbn
    simp only [Node.elem.injEq] at hbn
    obtain ⟨sh, hsh⟩ := copySheet_of (d := d) (w := ⟨some wb, some we⟩) (pre := pre) (n := .elem x kids)
      (coll := collStyles ⟨some wb, some we⟩ (.elem x kids)) (sh := d.head.sheet) (by
        intro e he hc t ht
        have hn := (validate_ok hv).1
        unfold HDoc.ids at hn
        rw [List.nodup_append, List.nodup_append] at hn
        exact (collStyles_closed hv).1 _ hc t ⟨_, find_of_mem hn.1.1 he, ht⟩)
    obtain ⟨rs, hrs⟩ := copyRegions_of (d := d) (w := ⟨some wb, some we⟩) (pre := pre) (n := .elem x kids)
      (coll := collRegions ⟨some wb, some we⟩ (.elem x kids)) (rs := d.head.regions) (by
        intro r hr hc t ht
        obtain ⟨y, hy, hyr⟩ := List.mem_filterMap.mp hc
        obtain ⟨i, hi, hid, href, _⟩ := info_of_region hv hr
        cases hreg : y.pres.region with
        | none => rw [hreg] at hyr; cases hyr
        | some j =>
          rw [hreg] at hyr
          simp only [Option.map_some, Option.some.injEq] at hyr
          obtain ⟨_, fy⟩ := hf y (affected_labels hy)
          have := infos_unique hv (fy.known j hreg) hi (by rw [hyr, hid])
          subst this
          exact List.mem_flatMap.mpr ⟨y, hy, fy.rstyles j hreg t ((refStyles_closed href).1 t ht)⟩)
    obtain ⟨body, hbody⟩ := Doc.C23_segment_exists (segEnv d ⟨some wb, some we⟩ pre (.elem x kids)) wb we rfl hlt hbase x.lab
      (mapNL Full.lab kids) (by
        show x.att.kind = _
        rw [hbn.1]; exact hkind) (hover x (by simp [rootOf])) (by
        intro anc y ys hr hz
        obtain ⟨anc0, y0, rfl, hy0, hr0⟩ := reach_of_mapN (f := Full.lab) (root := .elem x kids) hr
        cases y0 with
        | text t => simp [mapN] at hy0
        | br => simp [mapN] at hy0
        | elem y0 ys0 =>
          rw [mapN] at hy0
          simp only [Node.elem.injEq] at hy0
          obtain ⟨rfl, _⟩ := hy0
          obtain ⟨c1, c2⟩ := refs_collected hv hs hu hk hg hr0 (hz y0.lab (by simp))
          refine ⟨fun s hs' => ?_, fun r hhas hr' => ?_⟩
          · have := c1 s hs'
            simp [segEnv, this]
          · have := c2 r ((if_pos hhas).trans hr')
            simp [segEnv, this])
    have : ∃ s, segmentOf d ⟨some wb, some we⟩ pre (.elem x kids) = .ok s := by
      unfold segmentOf
      simp only [mapN, hsh, hrs, hbody, bind, Except.bind, hst, hla]
      exact ⟨_, rfl⟩
    obtain ⟨s, hs'⟩ := this
    exact ⟨s, extract_of hv ⟨a, kids0, hb⟩ hs'⟩

/-! ## Examples -/

/-- A time in seconds. -/
def sec (t : Int) : Doc.TV := ⟨"t".toList, t * 1000000⟩

/-- A p with a text. -/
def line (r : Option Name) (st : List Name) (b e : Int) (t : String) : Node Att :=
  .elem { kind := .p, region := r, style := st, beg := some ⟨"1".toList, b * 1000000⟩, fin := some ⟨"2".toList, e * 1000000⟩ } [.text t.toList]

def docOf (body : Node Att) : HDoc where
  head := Style.exHead
  styling := true
  layout := true
  body := body
  avail := 0
  base := .media
  rd := Time.exactReader

/-- What a head has. -/
def headOf (s : HDoc) : List Name × List Name := (s.head.sheet.map (·.1), s.head.regions.map (·.id))

def summary (r : Except XErr HDoc) : Option (List Name × List Name) := r.toOption.map headOf

/-- Two lines in two regions, one style. -/
def exBody : Node Att := .elem { kind := .body } [.elem { kind := .div, style := ["s".toList] }
  [line (some "r".toList) [] 1 4 "a", line (some "q".toList) [] 5 8 "b"]]

example : Doc.shaped exBody = true ∧ Style.unnested exBody = true ∧ (docOf exBody).validate.toOption.isSome = true ∧
    summary ((docOf exBody).extract ⟨some 0, some 4000000⟩ none) = some (["s".toList], ["r".toList]) ∧
    summary ((docOf exBody).extract ⟨some 5000000, some 8000000⟩ (some 3)) = some (["SEQ3.s".toList, "SEQ3.t".toList], ["SEQ3.q".toList]) := by
  decide +kernel

mutual
/-- A way to check `NoGaps`. -/
def noGaps (w : Win) : Node Full → Bool
  | .elem y ys =>
    (!(decide (y.kind = .div) && Doc.Overlaps w y.comp && (!y.att.style.isEmpty || (ownRegion y.att).isSome)) ||
      (labelsOf (.elem y ys)).any (fun z => (decide (z.kind = .p) || decide (z.kind = .span)) && Doc.Overlaps w z.comp)) && noGapsL w ys
  | _ => true
def noGapsL (w : Win) : List (Node Full) → Bool
  | [] => true
  | k :: ks => noGaps w k && noGapsL w ks
end

theorem noGapsL_mem {w : Win} : ∀ {ks : List (Node Full)} {k : Node Full}, noGapsL w ks = true → k ∈ ks → noGaps w k = true
  | q :: qs, k, h, hk => by
    rw [noGapsL, Bool.and_eq_true] at h
    rcases List.mem_cons.mp hk with rfl | hk
    · exact h.1
    · exact noGapsL_mem h.2 hk

theorem noGaps_sound {w : Win} {n : Node Full} (h : noGaps w n = true) : NoGaps w n := by
  intro anc y ys hr hk ho hne
  have := Doc.reach_all (P := fun n => noGaps w n = true) (fun x kids k hx hk => by
    rw [noGaps, Bool.and_eq_true] at hx
    exact noGapsL_mem hx.2 hk) h hr
  rw [noGaps, Bool.and_eq_true, Bool.or_eq_true] at this
  rcases this.1 with h1 | h1
  · exfalso
    have : (!y.att.style.isEmpty || (ownRegion y.att).isSome) = true := by
      rcases hne with hne | hne
      · simp [hne]
      · simp [hne]
    rw [this, hk, ho] at h1
    simp at h1
  · obtain ⟨z, hz, hzz⟩ := List.any_eq_true.mp h1
    simp only [Bool.and_eq_true, Bool.or_eq_true, decide_eq_true_eq] at hzz
    obtain ⟨anc', zs, hrz⟩ := reach_of_label hz
    exact ⟨anc', z, zs, hrz, hzz.1, hzz.2⟩

example : (docOf exBody).validate.toOption.map (fun r => (noGaps ⟨some 0, some 7000000⟩ r.2,
      (rootOf r.2).all (fun x => Doc.Overlaps ⟨some 0, some 7000000⟩ x.comp))) = some (true, true) ∧
    (docOf exBody).styling = true ∧ (docOf exBody).layout = true ∧ (docOf exBody).base = .media := by
  decide +kernel

/-- The same with a gap. -/
def exGap : Node Att := .elem { kind := .body } [.elem { kind := .div } [line none [] 1 8 "c"],
  .elem { kind := .div, style := ["s".toList] } [line none [] 1 4 "a", line none [] 6 8 "b"]]

def failure (r : Except XErr HDoc) : Option XErr := match r with | .ok _ => none | .error e => some e

/-- **C55** is false in general: in a window in which a div that refers to a style has nothing to show, extraction fails, even
though another div has something to show. -/
theorem C55_false_gap : ∃ body, Doc.shaped body = true ∧ Style.unnested body = true ∧ (docOf body).validate.toOption.isSome = true ∧
    failure ((docOf body).extract ⟨some 4000000, some 5000000⟩ none) = some (.segment .keyError) :=
  ⟨exGap, by decide +kernel⟩

/-- **C55** is false in general: a region of a div is not copied if all that is shown in it has a region of its own. -/
theorem C55_false_nested_regions : ∃ body, Doc.shaped body = true ∧ (docOf body).validate.toOption.isSome = true ∧
    failure ((docOf body).extract ⟨some 1000000, some 4000000⟩ none) = some (.segment .keyError) :=
  ⟨.elem { kind := .body } [.elem { kind := .div, region := some "r".toList } [line (some "q".toList) [] 1 4 "a"]], by decide +kernel⟩

/-- **C55** is false in general: from a document without a styling nothing can be extracted, whatever it shows. -/
theorem C55_false_no_styling : ∃ d : HDoc, Doc.shaped d.body = true ∧ Style.unnested d.body = true ∧ d.validate.toOption.isSome = true ∧
    failure (d.extract ⟨some 1000000, some 4000000⟩ none) = some (.segment .attributeError) :=
  ⟨{ docOf (.elem { kind := .body } [.elem { kind := .div } [line none [] 1 4 "a"]]) with
      head := { Style.exHead with sheet := [], regions := [] }, styling := false }, by decide +kernel⟩

/-- A segment may have styles that nothing in it uses: those of an earlier div. -/
theorem C54_false_only_used_styles : ∃ body, Doc.shaped body = true ∧ Style.unnested body = true ∧
    ((docOf body).extract ⟨some 5000000, some 8000000⟩ none).toOption.map (fun s =>
      (s.head.sheet.map (·.1), (labelsOf s.body).map (·.style), s.head.regions.map (·.refs))) =
      some (["s".toList, "t".toList], [[], [], ["t".toList]], []) :=
  ⟨.elem { kind := .body } [.elem { kind := .div, style := ["s".toList] } [line none [] 1 4 "a"],
    .elem { kind := .div } [line none ["t".toList] 5 8 "b"]], by decide +kernel⟩

end Verif.SegHead
