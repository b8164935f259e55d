import Verif.SegHead.Cut

/-!
# The references of a segment

Lemmas: what a segment refers to is in its head.
-/
namespace Verif.SegHead

open Verif.Doc (Node Att Kind Lab Comp Win Env SErr TErr Reach bind_ok)
open Verif.Style (Head PLab RInfo RegionDef PErr Name Sheet Specified Computed Refers refStyles setRegion ownRegion present presentL
  presentRegion presentRegions leave label)

section
variable {d : HDoc} {infos : List RInfo} {n : Node Full} {w : Win} {pre : Option Nat}

theorem find_mem_sheet {s : Name} (h : (Style.find d.head.sheet s).isSome) : s ∈ d.head.sheet.map (·.1) :=
  Style.find_mem h

theorem infos_ids (h : d.validate = .ok (infos, n)) : infos.map (·.id) = d.head.regions.map (·.id) :=
  forall₂_ids (presentRegions_ok (validate_ok h).2.1)

/-- No name is both a style's and a region's. -/
theorem style_not_region (h : d.validate = .ok (infos, n)) {s : Name} (hs : (Style.find d.head.sheet s).isSome)
    (hr : s ∈ d.head.regions.map (·.id)) : False := by
  have hn := (validate_ok h).1
  unfold HDoc.ids at hn
  rw [List.nodup_append, List.nodup_append] at hn
  exact hn.1.2.2 s (find_mem_sheet hs) s hr rfl

theorem collStyles_closed (h : d.validate = .ok (infos, n)) : Closed d.head.sheet (collStyles w n) := by
  obtain ⟨hf, _⟩ := valid_facts h
  constructor
  · intro s hs t hst
    obtain ⟨x, hx, hsx⟩ := List.mem_flatMap.mp hs
    exact List.mem_flatMap.mpr ⟨x, hx, (hf x (affected_labels hx)).2.closed.1 s hsx t hst⟩
  · intro s hs
    obtain ⟨x, hx, hsx⟩ := List.mem_flatMap.mp hs
    exact (hf x (affected_labels hx)).2.closed.2 s hsx

theorem usedStyles_closed (h : d.validate = .ok (infos, n)) : Closed d.head.sheet (usedStyles w n) := by
  obtain ⟨hf, _⟩ := valid_facts h
  constructor
  · intro s hs t hst
    obtain ⟨x, hx, hsx⟩ := List.mem_flatMap.mp hs
    exact List.mem_flatMap.mpr ⟨x, hx, (hf x (kept_labels hx).1).2.closed.1 s hsx t hst⟩
  · intro s hs
    obtain ⟨x, hx, hsx⟩ := List.mem_flatMap.mp hs
    exact (hf x (kept_labels hx).1).2.closed.2 s hsx

theorem collRegions_known (h : d.validate = .ok (infos, n)) {r : Name} (hr : r ∈ collRegions w n) : r ∈ d.head.regions.map (·.id) := by
  obtain ⟨hf, _⟩ := valid_facts h
  obtain ⟨x, hx, hi⟩ := List.mem_filterMap.mp hr
  cases hreg : x.pres.region with
  | none => rw [hreg] at hi; cases hi
  | some i =>
    rw [hreg] at hi
    simp only [Option.map_some, Option.some.injEq] at hi
    rw [← infos_ids h, List.mem_map]
    exact ⟨i, (hf x (affected_labels hx)).2.known i hreg, hi⟩

theorem find_renamed {sh : Sheet} {P : Name → Prop} [DecidablePred P] {s : Name} (hs : P s) :
    Style.find ((sh.filter (fun e => decide (P e.1))).map (fun e => (newName pre e.1, e.2.map (newName pre)))) (newName pre s) =
      (Style.find sh s).map (·.map (newName pre)) := by
  unfold Style.find
  induction sh with
  | nil => rfl
  | cons e es ih =>
    by_cases he : P e.1
    · rw [List.filter_cons_of_pos (by simpa using he), List.map_cons, List.find?_cons, List.find?_cons]
      by_cases hes : e.1 = s
      · simp [hes]
      · have : newName pre e.1 ≠ newName pre s := fun h => hes (newName_inj pre _ _ h)
        simp only [hes, this, decide_false]
        exact ih
    · rw [List.filter_cons_of_neg (by simpa using he), List.find?_cons]
      have : e.1 ≠ s := fun h => he (h ▸ hs)
      simp only [this, decide_false]
      exact ih

/-- The styles of a segment are the used ones of the document, renamed. -/
theorem seg_part (h : d.validate = .ok (infos, n)) :
    Part d.head.sheet (segSheet d w pre n) (newName pre) (fun s => s ∈ collStyles w n ∧ s ∈ usedStyles w n) where
  inj := newName_inj pre
  find := fun s hs => find_renamed (P := fun s => s ∈ collStyles w n ∧ s ∈ usedStyles w n) hs
  closed := fun s hs t hst => ⟨(collStyles_closed h).1 s hs.1 t hst, (usedStyles_closed h).1 s hs.2 t hst⟩

/-- References that were copied and are used can be resolved in the segment, with the renamed result. -/
theorem seg_refs (h : d.validate = .ok (infos, n)) {s : HDoc} (hs : segmentOf d w pre n = .ok s) {l r : List Name}
    (hl : refStyles d.head l = .ok r) (hc : ∀ x ∈ l, x ∈ collStyles w n ∨ x ∈ collRegions w n) (hu : ∀ x ∈ l, x ∈ usedStyles w n) :
    refStyles s.head (l.map (newName pre)) = .ok (r.map (newName pre)) := by
  rw [refStyles_ok] at hl ⊢
  rw [(segmentOf_ok hs).1]
  refine (seg_part h).collect ?_ hl
  intro x hx
  refine ⟨?_, hu x hx⟩
  rcases hc x hx with hx' | hx'
  · exact hx'
  · exact (style_not_region h ((refStyles_closed (refStyles_ok.mpr hl)).2.2 x ((refStyles_closed (refStyles_ok.mpr hl)).1 x hx))
      (collRegions_known h hx')).elim

theorem infos_unique (h : d.validate = .ok (infos, n)) {i j : RInfo} (hi : i ∈ infos) (hj : j ∈ infos) (e : i.id = j.id) : i = j := by
  have hn : (infos.map (·.id)).Nodup := by
    rw [infos_ids h]
    have := (validate_ok h).1
    unfold HDoc.ids at this
    rw [List.nodup_append, List.nodup_append] at this
    exact this.1.2.1
  clear h
  induction infos with
  | nil => simp at hi
  | cons a as ih =>
    rw [List.map_cons, List.nodup_cons] at hn
    rcases List.mem_cons.mp hi with h1 | h1 <;> rcases List.mem_cons.mp hj with h2 | h2
    · rw [h1, h2]
    · exact (hn.1 (List.mem_map.mpr ⟨j, h2, by rw [← e, h1]⟩)).elim
    · exact (hn.1 (List.mem_map.mpr ⟨i, h1, by rw [e, h2]⟩)).elim
    · exact ih h1 h2 hn.2

/-- The region of a kept element. -/
theorem usedRegion_info (h : d.validate = .ok (infos, n)) {r : Name} (hr : r ∈ usedRegions w n) :
    ∃ x ∈ kept w n, ownRegion x.att = some r ∧ ∃ i ∈ infos, x.pres.region = some i ∧ i.id = r := by
  obtain ⟨hf, _⟩ := valid_facts h
  obtain ⟨x, hx, ho⟩ := List.mem_filterMap.mp hr
  obtain ⟨e, fx⟩ := hf x (kept_labels hx).1
  obtain ⟨i, hi, hid⟩ := fx.region r (by rw [e]; exact ho)
  exact ⟨x, hx, ho, i, fx.known i hi, hi, hid⟩

/-- The validated region for a region definition. -/
theorem info_of_region (h : d.validate = .ok (infos, n)) {r : RegionDef} (hr : r ∈ d.head.regions) :
    ∃ i ∈ infos, i.id = r.id ∧ refStyles d.head r.refs = .ok i.styles ∧ presentRegion d.head r = .ok i := by
  obtain ⟨i, hi, hp⟩ := forall₂_left (presentRegions_ok (validate_ok h).2.1) r hr
  exact ⟨i, hi, (presentRegion_ok hp).1, (presentRegion_ok hp).2, hp⟩

/-- The styles of a region of the segment can be resolved. -/
theorem seg_region (h : d.validate = .ok (infos, n)) {s : HDoc} (hs : segmentOf d w pre n = .ok s) {r : RegionDef}
    (hr : r ∈ d.head.regions) (hc : r.id ∈ collRegions w n) (hu : r.id ∈ usedRegions w n) {i : RInfo} (hi : i ∈ infos) (hid : i.id = r.id) :
    refStyles s.head (r.refs.map (newName pre)) = .ok (i.styles.map (newName pre)) := by
  obtain ⟨j, hj, e1, e2, _⟩ := info_of_region h hr
  have hji := infos_unique h hj hi (by rw [e1, hid])
  subst hji
  refine seg_refs h hs e2 ((segmentOf_ok hs).2.2.2.2.2.2.2.2 r hr hc) ?_
  intro x hx
  obtain ⟨y, hy, _, k, hk, hyk, e3⟩ := usedRegion_info h hu
  have := infos_unique h hk hj (by rw [e3, e1])
  subst this
  have fy := (valid_facts h).1 y (kept_labels hy).1
  exact List.mem_flatMap.mpr ⟨y, hy, fy.2.rstyles k hyk x ((refStyles_closed e2).1 x hx)⟩

theorem seg_regions (h : d.validate = .ok (infos, n)) {s : HDoc} (hs : segmentOf d w pre n = .ok s) :
    ∃ infos', presentRegions s.head s.head.regions = .ok infos' := by
  apply presentRegions_some
  intro r' hr'
  rw [(segmentOf_ok hs).2.2.1] at hr'
  obtain ⟨r, hr, rfl⟩ := List.mem_map.mp hr'
  obtain ⟨hr, hcu⟩ := List.mem_filter.mp hr
  simp only [decide_eq_true_eq] at hcu
  obtain ⟨i, hi, hid, _⟩ := info_of_region h hr
  exact ⟨_, seg_region h hs hr hcu.1 hcu.2 hi hid⟩

/-! ### The body -/

/-- What an element of the segment takes from the element it is a copy of. -/
def CopyOf (v : Env) (x : Full) (a : Att) : Prop :=
  a.kind = x.kind ∧ a.id = Doc.copyId v x.att ∧ Doc.copyRegion v (ownRegion x.att) = .ok a.region ∧ Doc.copyRefs v x.att.style = .ok a.style

mutual
/-- The labels of a copy. -/
theorem copied_all {v : Env} : ∀ {c : Node Full} {m : Node Att}, Copied v c m → List.Forall₂ (CopyOf v) (labelsOf c) (labelsOf m)
  | .text s, .text t, _ => .nil
  | .br, .br, _ => .nil
  | .elem x ks, .elem b ms, h => by
    rw [Copied] at h
    rw [labelsOf, labelsOf]
    exact .cons ⟨h.1, h.2.1, h.2.2.1, h.2.2.2.1⟩ (copiedL_all h.2.2.2.2)
  | .text s, .br, h => by simp [Copied] at h
  | .text s, .elem _ _, h => by simp [Copied] at h
  | .br, .text _, h => by simp [Copied] at h
  | .br, .elem _ _, h => by simp [Copied] at h
  | .elem _ _, .text _, h => by simp [Copied] at h
  | .elem _ _, .br, h => by simp [Copied] at h
theorem copiedL_all {v : Env} : ∀ {cs : List (Node Full)} {ms : List (Node Att)}, CopiedL v cs ms →
    List.Forall₂ (CopyOf v) (labelsOfL cs) (labelsOfL ms)
  | [], [], _ => .nil
  | c :: cs, m :: ms, h => by
    rw [CopiedL] at h
    rw [labelsOfL, labelsOfL]
    exact Doc.forall₂_append (copied_all h.1) (copiedL_all h.2)
  | [], _ :: _, h => by simp [CopiedL] at h
  | _ :: _, [], h => by simp [CopiedL] at h
end

theorem copied_labels {v : Env} {c : Node Full} {m : Node Att} (h : Copied v c m) (a : Att) (ha : a ∈ labelsOf m) :
    ∃ x ∈ labelsOf c, CopyOf v x a := forall₂_right (copied_all h) a ha

/-- The body of a segment, with the tree it is a copy of. -/
theorem seg_body (h : d.validate = .ok (infos, n)) (hb : ∃ a kids, d.body = .elem a kids) {s : HDoc}
    (hs : segmentOf d w pre n = .ok s) : ∃ c, cut w n = some c ∧ Copied (segEnv d w pre n) c s.body := by
  have h3 := (validate_ok h).2.2.2.2
  obtain ⟨a, kids, hb⟩ := hb
  cases n with
  | text t => rw [hb] at h3; simp [mapN] at h3
  | br => rw [hb] at h3; simp [mapN] at h3
  | elem x ks =>
    obtain ⟨cs, h1, h2⟩ := segment_cut (segmentOf_ok hs).2.2.2.2.1
    exact ⟨_, h1, h2⟩

theorem own_copied {v : Env} {a b : Att} (hk : b.kind = a.kind) (hr : Doc.copyRegion v (ownRegion a) = .ok b.region) :
    Doc.copyRegion v (ownRegion a) = .ok (ownRegion b) := by
  rw [hr]
  unfold ownRegion at hr ⊢
  rw [hk]
  split
  · rfl
  · rename_i h
    rw [if_neg h] at hr
    simp only [Doc.copyRegion, Except.ok.injEq] at hr
    rw [← hr]

/-- What the copy of a kept element refers to. -/
theorem seg_copy (h : d.validate = .ok (infos, n)) {s : HDoc}
    (hs : segmentOf d w pre n = .ok s) {x : Full} (hx : x ∈ kept w n) {a : Att} (hcopy : CopyOf (segEnv d w pre n) x a) :
    a.style = x.att.style.map (newName pre) ∧ ownRegion a = (ownRegion x.att).map (newName pre) ∧
      refStyles s.head a.style = .ok (x.pres.referenced.map (newName pre)) ∧
      ∀ r, ownRegion x.att = some r → r ∈ collRegions w n ∧ r ∈ usedRegions w n := by
  obtain ⟨hk, _, hr, hst⟩ := hcopy
  obtain ⟨e, fx⟩ := (valid_facts h).1 x (kept_labels hx).1
  obtain ⟨s1, s2⟩ := copyRefs_seg hst
  have hr' := own_copied (b := a) (a := x.att) hk hr
  obtain ⟨r1, r2⟩ := copyRegion_seg hr'
  refine ⟨s1, r1, ?_, ?_⟩
  · rw [s1]
    refine seg_refs h hs (by rw [← e]; exact fx.refs) s2 ?_
    intro y hy
    refine List.mem_flatMap.mpr ⟨x, hx, fx.sub y ?_⟩
    exact (refStyles_closed fx.refs).1 y (by rw [e]; exact hy)
  · intro r hr0
    refine ⟨?_, List.mem_filterMap.mpr ⟨x, hx, hr0⟩⟩
    rcases r2 r hr0 with hc' | hc'
    · obtain ⟨i, hi, hid⟩ := fx.region r (by rw [e]; exact hr0)
      exact (style_not_region h ((collStyles_closed h).2 r hc') (by
        rw [← infos_ids h]; exact List.mem_map.mpr ⟨i, fx.known i hi, hid⟩)).elim
    · exact hc'

/-- The elements of a segment's body: what they refer to. -/
theorem seg_label (h : d.validate = .ok (infos, n)) (hb : ∃ a kids, d.body = .elem a kids) {s : HDoc}
    (hs : segmentOf d w pre n = .ok s) {a : Att} (ha : a ∈ labelsOf s.body) :
    ∃ x ∈ kept w n, a.kind = x.kind ∧ a.style = x.att.style.map (newName pre) ∧ ownRegion a = (ownRegion x.att).map (newName pre) ∧
      refStyles s.head a.style = .ok (x.pres.referenced.map (newName pre)) ∧
      ∀ r, ownRegion x.att = some r → r ∈ collRegions w n ∧ r ∈ usedRegions w n := by
  obtain ⟨c, hc, hcop⟩ := seg_body h hb hs
  obtain ⟨x, hx, hcopy⟩ := copied_labels hcop a ha
  have hx : x ∈ kept w n := by rw [kept_of_cut hc]; exact hx
  exact ⟨x, hx, hcopy.1, seg_copy h hs hx hcopy⟩

theorem seg_present (h : d.validate = .ok (infos, n)) (hb : ∃ a kids, d.body = .elem a kids) {s : HDoc}
    (hs : segmentOf d w pre n = .ok s) {infos' : List RInfo} (hi : presentRegions s.head s.head.regions = .ok infos') :
    ∃ r, present s.head infos' ⟨[], none⟩ none s.body = .ok r := by
  apply present_some
  intro a ha
  obtain ⟨x, hx, _, _, hreg, href, hcu⟩ := seg_label h hb hs ha
  refine ⟨⟨_, href⟩, ?_⟩
  intro r' hr'
  rw [hreg] at hr'
  cases ho : ownRegion x.att with
  | none => rw [ho] at hr'; cases hr'
  | some r =>
    rw [ho] at hr'
    simp only [Option.map_some, Option.some.injEq] at hr'
    subst hr'
    obtain ⟨h1, h2⟩ := hcu r ho
    obtain ⟨rd, hrd, e⟩ := List.mem_map.mp (collRegions_known h h1)
    have hin : newRegion pre rd ∈ s.head.regions := by
      rw [(segmentOf_ok hs).2.2.1]
      exact List.mem_map.mpr ⟨rd, List.mem_filter.mpr ⟨hrd, by simp [e, h1, h2]⟩, rfl⟩
    obtain ⟨i, hi', hp⟩ := forall₂_left (presentRegions_ok hi) _ hin
    exact ⟨i, hi', by rw [(presentRegion_ok hp).1]; simp [newRegion, e]⟩

/-! ### Identifiers -/

mutual
theorem idsOf_mapN {α β : Type} (g : α → β) (f : β → Option Name) : ∀ n : Node α, Doc.idsOf f (mapN g n) = Doc.idsOf (fun x => f (g x)) n
  | .text s => rfl
  | .br => rfl
  | .elem x kids => by simp only [mapN, Doc.idsOf, idsOfL_mapN g f kids]
theorem idsOfL_mapN {α β : Type} (g : α → β) (f : β → Option Name) : ∀ ks : List (Node α), Doc.idsOfL f (mapNL g ks) = Doc.idsOfL (fun x => f (g x)) ks
  | [] => rfl
  | k :: ks => by simp only [mapNL, Doc.idsOfL, idsOf_mapN g f k, idsOfL_mapN g f ks]
end

/-- The identifier an element registers. -/
def regId (a : Att) : Option Name := if a.kind = .body then none else a.id

theorem idsOfL_append {α : Type} (f : α → Option Name) : ∀ a b : List (Node α), Doc.idsOfL f (a ++ b) = Doc.idsOfL f a ++ Doc.idsOfL f b
  | [], b => rfl
  | k :: ks, b => by simp [Doc.idsOfL, idsOfL_append f ks b]

mutual
theorem cut_ids {w : Win} (f : Full → Option Name) : ∀ n : Node Full, (Doc.idsOfL f (cut w n).toList).Sublist (Doc.idsOf f n)
  | .text s => by simp [cut, Doc.idsOfL, Doc.idsOf]
  | .br => by simp [cut, Doc.idsOfL, Doc.idsOf]
  | .elem x kids => by
    rw [cut]
    split
    · split
      · exact List.nil_sublist _
      · simp only [Option.toList, Doc.idsOfL, Doc.idsOf, List.append_nil]
        exact List.Sublist.append (List.Sublist.refl _) (cutL_ids f kids)
    · exact List.nil_sublist _
theorem cutL_ids {w : Win} (f : Full → Option Name) : ∀ ks : List (Node Full), (Doc.idsOfL f (cutL w ks)).Sublist (Doc.idsOfL f ks)
  | [] => by simp [cutL]
  | k :: ks => by
    rw [cutL, idsOfL_append, Doc.idsOfL]
    exact List.Sublist.append (cut_ids f k) (cutL_ids f ks)
end

theorem regId_copy {a : Att} {x : Full} (hk : a.kind = x.kind) (hi : a.id = Doc.copyId (segEnv d w pre n) x.att) :
    regId a = (regId x.att).map (newName pre) := by
  unfold regId
  rw [hk, hi]
  have hkk : x.kind = x.att.kind := rfl
  rw [hkk]
  unfold Doc.copyId
  cases hx : x.att.kind with
  | body => simp
  | div => cases pre <;> cases x.att.id <;> simp [segEnv, newName]
  | p => cases pre <;> cases x.att.id <;> simp [segEnv, newName]
  | span => cases pre <;> cases x.att.id <;> simp [segEnv, newName]

mutual
theorem copied_ids : ∀ {c : Node Full} {m : Node Att}, Copied (segEnv d w pre n) c m →
    Doc.idsOf regId m = (Doc.idsOf (fun x => regId x.att) c).map (newName pre)
  | .text s, .text t, _ => rfl
  | .br, .br, _ => rfl
  | .elem x ks, .elem b ms, h => by
    rw [Copied] at h
    rw [Doc.idsOf, Doc.idsOf, List.map_append, ← copiedL_ids h.2.2.2.2, regId_copy h.1 h.2.1]
    congr 1
    cases regId x.att <;> rfl
  | .text s, .br, h => by simp [Copied] at h
  | .text s, .elem _ _, h => by simp [Copied] at h
  | .br, .text _, h => by simp [Copied] at h
  | .br, .elem _ _, h => by simp [Copied] at h
  | .elem _ _, .text _, h => by simp [Copied] at h
  | .elem _ _, .br, h => by simp [Copied] at h
theorem copiedL_ids : ∀ {cs : List (Node Full)} {ms : List (Node Att)}, CopiedL (segEnv d w pre n) cs ms →
    Doc.idsOfL regId ms = (Doc.idsOfL (fun x => regId x.att) cs).map (newName pre)
  | [], [], _ => rfl
  | c :: cs, m :: ms, h => by
    rw [CopiedL] at h
    rw [Doc.idsOfL, Doc.idsOfL, List.map_append, copied_ids h.1, copiedL_ids h.2]
  | [], _ :: _, h => by simp [CopiedL] at h
  | _ :: _, [], h => by simp [CopiedL] at h
end

/-- The identifiers of a segment are identifiers of the document, renamed, in the same order. -/
theorem seg_ids (h : d.validate = .ok (infos, n)) (hb : ∃ a kids, d.body = .elem a kids) {s : HDoc}
    (hs : segmentOf d w pre n = .ok s) : ∃ l : List Name, l.Sublist d.ids ∧ s.ids = l.map (newName pre) := by
  obtain ⟨c, hc, hcop⟩ := seg_body h hb hs
  have hbody := (validate_ok h).2.2.2.2
  have hsub := cut_ids (w := w) (fun x => regId x.att) n
  rw [hc] at hsub
  simp only [Option.toList, Doc.idsOfL, List.append_nil] at hsub
  refine ⟨((d.head.sheet.filter (fun s => decide (s.1 ∈ collStyles w n ∧ s.1 ∈ usedStyles w n))).map (·.1)) ++
    ((d.head.regions.filter (fun r => decide (r.id ∈ collRegions w n ∧ r.id ∈ usedRegions w n))).map (·.id)) ++
    Doc.idsOf (fun x => regId x.att) c, ?_, ?_⟩
  · unfold HDoc.ids
    refine List.Sublist.append (List.Sublist.append (List.filter_sublist.map _) (List.filter_sublist.map _)) ?_
    have : Doc.idsOf (fun a => if a.kind = .body then none else a.id) d.body = Doc.idsOf (fun x => regId x.att) n := by
      rw [← hbody, idsOf_mapN]
      rfl
    rw [this]
    exact hsub
  · unfold HDoc.ids
    have : Doc.idsOf (fun a => if a.kind = .body then none else a.id) s.body = Doc.idsOf regId s.body := rfl
    rw [this, copied_ids hcop, (segmentOf_ok hs).1, (segmentOf_ok hs).2.2.1]
    simp only [segSheet, segRegions, List.map_append, List.map_map]
    rfl

end

end Verif.SegHead
