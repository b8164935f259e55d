import Verif.Doc.SegmentLemmas

/-! Helper lemmas: the structure of a segment, and the leaves of a validated document. -/
namespace Verif.Doc

/-- Has content of its kind. -/
def hasContent (kd : Kind) (kids : List (Node Att)) : Bool :=
  match kd with
  | .body => true
  | .div => kids.any (fun k => match k with
      | .elem a _ => decide (a.kind = .div) || decide (a.kind = .p)
      | _ => false)
  | _ => Visible (items kids) || kids.any (isSpan Att.kind)

mutual
/-- Every container has content, and only leaves have times. -/
def tidy : Node Att → Bool
  | .elem a kids => hasContent a.kind kids && (Leaf Att.kind a kids || decide (a.beg = none ∧ a.fin = none ∧ a.dur = none)) && tidyL kids
  | _ => true
def tidyL : List (Node Att) → Bool
  | [] => true
  | k :: ks => tidy k && tidyL ks
end

theorem tidyL_append (a b : List (Node Att)) : tidyL (a ++ b) = (tidyL a && tidyL b) := by
  induction a with
  | nil => rfl
  | cons k ks ih => simp [tidyL, ih, Bool.and_assoc]

theorem shapedL_append (a b : List (Node Att)) : shapedL (a ++ b) = (shapedL a && shapedL b) := by
  induction a with
  | nil => rfl
  | cons k ks ih => simp [shapedL, ih, Bool.and_assoc]

theorem hasContent_of {kd : Kind} {ks : List (Node Att)} (ht : textsOk (items ks) = true)
    (he : isEmpty kd ks = false) : hasContent kd ks = true := by
  cases kd with
  | body => rfl
  | div =>
    unfold hasContent
    simp only [isEmpty, hasKid] at he
    rw [Bool.eq_false_iff, Ne, Bool.and_eq_true, not_and_or] at he
    rw [List.any_eq_true]
    rcases he with he | he <;>
      (simp only [Bool.not_eq_true', Bool.not_eq_false] at he
       obtain ⟨k, hk, hh⟩ := List.any_eq_true.mp he
       refine ⟨k, hk, ?_⟩
       cases k <;> simp_all)
  | p =>
    rw [isEmpty_leafy (.inl rfl) ht] at he
    unfold hasContent
    cases h1 : Visible (items ks) <;> cases h2 : ks.any (isSpan Att.kind) <;> simp_all
  | span =>
    rw [isEmpty_leafy (.inr rfl) ht] at he
    unfold hasContent
    cases h1 : Visible (items ks) <;> cases h2 : ks.any (isSpan Att.kind) <;> simp_all

mutual
theorem seg_tidy {v : Env} : ∀ (n : Node Lab) (o : Option (Node Att)), segNode v n = .ok o →
    shaped (erase n) = true → shapedL o.toList = true ∧ tidyL o.toList = true
  | .text s, o, h, hs => by
    simp only [segNode, Except.ok.injEq] at h
    subst h
    simpa [shapedL, tidyL, tidy, shaped, erase] using hs
  | .br, o, h, hs => by
    simp only [segNode, Except.ok.injEq] at h
    subst h
    exact ⟨rfl, rfl⟩
  | .elem x kids, o, h, hs => by
    simp only [erase, shaped, Bool.and_eq_true] at hs
    rcases segNode_elem h with ⟨hin, rfl⟩ | ⟨hin, a, ks, ha, hks, ⟨_, rfl⟩ | ⟨he, a', ha', rfl⟩⟩
    · exact ⟨rfl, rfl⟩
    · exact ⟨rfl, rfl⟩
    · have ih := segL_tidy kids ks hks hs.2
      have hf := segList_fits hks hs.1
      have htx : textsOk (items ks) = true := textsOk_shaped ih.1
      have hkind := (leafTiming_kind ha').1
      rw [copyAtt_kind ha] at hkind
      simp only [Option.toList, shapedL, tidyL, shaped, tidy, Bool.and_true, Bool.and_eq_true, hkind]
      refine ⟨⟨hf, ih.1⟩, ⟨hasContent_of htx he, ?_⟩, ih.2⟩
      unfold leafTiming at ha'
      rw [copyAtt_kind ha] at ha'
      by_cases hl : isTimedLeaf x.att.kind ks = true
      · have hk : x.att.kind = .p ∨ x.att.kind = .span := by
          cases hkd : x.att.kind <;> simp_all [isTimedLeaf]
        rw [isTimedLeaf_eq hk] at hl
        rw [Bool.or_eq_true]
        left
        rcases hk with hk | hk <;> simp only [Leaf, hkind, hk] <;> simpa using hl
      · rw [if_neg hl] at ha'
        simp only [Except.ok.injEq] at ha'
        rw [Bool.or_eq_true]
        right
        rw [← ha']
        simp
theorem segL_tidy {v : Env} : ∀ (ns : List (Node Lab)) (out : List (Node Att)), segList v ns = .ok out →
    shapedL (eraseL ns) = true → shapedL out = true ∧ tidyL out = true
  | [], out, h, _ => by
    simp only [segList, Except.ok.injEq] at h
    subst h
    exact ⟨rfl, rfl⟩
  | k :: ks, out, h, hs => by
    obtain ⟨o, rest, ho, hr, rfl⟩ := segList_cons h
    simp only [eraseL, shapedL, Bool.and_eq_true] at hs
    have h1 := seg_tidy k o ho hs.1
    have h2 := segL_tidy ks rest hr hs.2
    rw [shapedL_append, tidyL_append, h1.1, h1.2, h2.1, h2.2]
    exact ⟨rfl, rfl⟩
end

/-- The cases of a segment. -/
theorem segment_cases {v : Env} {x : Lab} {kids : List (Node Lab)} {seg : Node Att}
    (h : segment v (.elem x kids) = .ok seg) :
    ∃ a ks, segNode v (.elem x kids) = .ok (some (.elem a ks)) ∧ a.kind = x.att.kind ∧
      ((ks ≠ [] ∧ seg = .elem a ks) ∨
       (ks = [] ∧ ∃ b e, stamp v v.win.b = .ok b ∧ stamp v v.win.e = .ok e ∧
          seg = .elem { a with beg := some b, fin := some e } [])) := by
  unfold segment at h
  obtain ⟨o, ho, h⟩ := bind_ok h
  cases o with
  | none => simp [throw, throwThe, MonadExceptOf.throw] at h
  | some m =>
    rcases segNode_kind ho with ⟨s, h1, _⟩ | ⟨h1, _⟩ | ⟨x', kids', a, ks, h1, rfl, hk⟩
    · simp at h1
    · simp at h1
    · injection h1 with h1 _
      subst h1
      refine ⟨a, ks, ho, hk, ?_⟩
      cases ks with
      | nil =>
        right
        simp only at h
        obtain ⟨b, hb, h⟩ := bind_ok h
        obtain ⟨e, he, h⟩ := bind_ok h
        simp only [pure, Except.pure, Except.ok.injEq] at h
        exact ⟨rfl, b, e, hb, he, h.symm⟩
      | cons k ks =>
        left
        simp only [pure, Except.pure, Except.ok.injEq] at h
        exact ⟨by simp, h.symm⟩

mutual
theorem mem_leaves {α : Type} {kd : α → Kind} : ∀ (n : Node α) (l : α × List Item), l ∈ leaves kd n →
    ∃ anc kids, Reach n anc (.elem l.1 kids) ∧ Leaf kd l.1 kids = true ∧ l.2 = items kids ∧ Visible l.2 = true
  | .text s, l, h => by simp [leaves] at h
  | .br, l, h => by simp [leaves] at h
  | .elem x kids, l, h => by
    rw [leaves] at h
    by_cases hl : Leaf kd x kids = true
    · rw [if_pos hl] at h
      by_cases hv : Visible (items kids) = true
      · rw [if_pos hv, List.mem_singleton] at h
        subst h
        exact ⟨[], kids, .here, hl, rfl, hv⟩
      · rw [if_neg hv] at h; simp at h
    · rw [if_neg hl] at h
      obtain ⟨k, hk, anc, ks, hr, h1, h2, h3⟩ := mem_leavesL kids l h
      exact ⟨x :: anc, ks, by
        have := reach_trans (x := x) (root := .elem x kids) (.here) hk hr
        simpa using this, h1, h2, h3⟩
theorem mem_leavesL {α : Type} {kd : α → Kind} : ∀ (ns : List (Node α)) (l : α × List Item), l ∈ leavesL kd ns →
    ∃ k ∈ ns, ∃ anc kids, Reach k anc (.elem l.1 kids) ∧ Leaf kd l.1 kids = true ∧ l.2 = items kids ∧ Visible l.2 = true
  | [], l, h => by simp [leavesL] at h
  | k :: ks, l, h => by
    rw [leavesL, List.mem_append] at h
    rcases h with h | h
    · exact ⟨k, List.mem_cons_self, mem_leaves k l h⟩
    · obtain ⟨k', hk', rest⟩ := mem_leavesL ks l h
      exact ⟨k', List.mem_cons_of_mem _ hk', rest⟩
end

/-- Every element covers the elements directly inside it. -/
def Cov (n : Node Lab) : Prop := ∀ anc x kids y ys, Reach n anc (.elem x kids) → Node.elem y ys ∈ kids → Covers x.comp y.comp

theorem Cov.kid {x : Lab} {kids : List (Node Lab)} (h : Cov (.elem x kids)) {k : Node Lab} (hk : k ∈ kids) : Cov k :=
  fun anc y ks z zs hr hz => h (x :: anc) y ks z zs (by
    have := reach_trans (x := x) (root := .elem x kids) (.here) hk hr
    simpa using this) hz

theorem Cov.root {x : Lab} {kids : List (Node Lab)} (h : Cov (.elem x kids)) {anc : List Lab} {n : Node Lab}
    (hr : Reach (.elem x kids) anc n) : ∀ y ys, n = .elem y ys → Covers x.comp y.comp := by
  induction hr with
  | here =>
    intro y ys hn
    injection hn with hn _
    subst hn
    exact ⟨Int.le_refl _, fun ex he => ⟨ex, he, Int.le_refl _⟩⟩
  | @step anc z zs k hr hk ih =>
    intro y ys hn
    subst hn
    exact (ih z zs rfl).trans (h anc z zs y ys hr hk)

theorem Covers.overlaps {w : Win} {c d : Comp} (h : Covers c d) (ho : Overlaps w d = true) : Overlaps w c = true := by
  obtain ⟨h1, h2⟩ := h
  unfold Overlaps at *
  cases hb : w.b <;> cases he : w.e <;> cases hce : c.e <;> simp_all
  · omega
  · omega
  · obtain ⟨ey, hy, hle⟩ := h2; rw [hy] at ho; simp at ho; omega
  · omega
  · obtain ⟨ey, hy, hle⟩ := h2; rw [hy] at ho; simp at ho; omega

mutual
theorem pruned_eq {w : Win} : ∀ (n : Node Lab), Cov n →
    pruned w n = (leavesOf n).filter (fun l => Overlaps w l.1.comp)
  | .text s, _ => rfl
  | .br, _ => rfl
  | .elem x kids, h => by
    by_cases hin : inSeg w x.comp = true
    · rw [pruned, if_pos hin, leavesOf, leaves]
      by_cases hl : Leaf (fun x : Lab => x.att.kind) x kids = true
      · rw [if_pos hl, if_pos hl]
        by_cases hv : Visible (items kids) = true
        · rw [if_pos hv]
          rw [inSeg_eq] at hin
          simp [hin]
        · rw [if_neg hv]; rfl
      · rw [if_neg hl, if_neg hl]
        exact prunedL_eq kids (fun k hk => h.kid hk)
    · rw [pruned, if_neg hin, eq_comm, List.filter_eq_nil_iff]
      intro l hlm ho
      obtain ⟨anc, ks, hr, _⟩ := mem_leaves _ l hlm
      apply hin
      rw [inSeg_eq]
      exact (h.root hr l.1 ks rfl).overlaps ho
theorem prunedL_eq {w : Win} : ∀ (ns : List (Node Lab)), (∀ k ∈ ns, Cov k) →
    prunedL w ns = (leavesL (fun x => x.att.kind) ns).filter (fun l => Overlaps w l.1.comp)
  | [], _ => rfl
  | k :: ks, h => by
    rw [prunedL, leavesL, List.filter_append, pruned_eq k (h k List.mem_cons_self),
      prunedL_eq ks (fun k' hk' => h k' (List.mem_cons_of_mem _ hk'))]
    rfl
end

/-! Facts about every element of a tree from the checkable conditions. -/

theorem wellTimedL_mem {ks : List (Node Att)} (h : wellTimedL ks = true) {k : Node Att} (hk : k ∈ ks) : wellTimed k = true := by
  induction ks with
  | nil => simp at hk
  | cons y ys ih =>
    simp only [wellTimedL, Bool.and_eq_true] at h
    rcases List.mem_cons.mp hk with rfl | hk
    · exact h.1
    · exact ih h.2 hk

theorem inMsL_mem {ks : List (Node Att)} (h : inMsL ks = true) {k : Node Att} (hk : k ∈ ks) : inMs k = true := by
  induction ks with
  | nil => simp at hk
  | cons y ys ih =>
    simp only [inMsL, Bool.and_eq_true] at h
    rcases List.mem_cons.mp hk with rfl | hk
    · exact h.1
    · exact ih h.2 hk

theorem shapedL_mem {ks : List (Node Att)} (h : shapedL ks = true) {k : Node Att} (hk : k ∈ ks) : shaped k = true := by
  induction ks with
  | nil => simp at hk
  | cons y ys ih =>
    simp only [shapedL, Bool.and_eq_true] at h
    rcases List.mem_cons.mp hk with rfl | hk
    · exact h.1
    · exact ih h.2 hk

theorem reach_all {α : Type} {P : Node α → Prop} (hstep : ∀ x kids k, P (.elem x kids) → k ∈ kids → P k)
    {root : Node α} (h : P root) {anc : List α} {n : Node α} (hr : Reach root anc n) : P n := by
  induction hr with
  | here => exact h
  | step _ hk ih => exact hstep _ _ _ ih hk

theorem wellTimed_reach {root : Node Att} (h : wellTimed root = true) {anc : List Att} {a : Att} {kids : List (Node Att)}
    (hr : Reach root anc (.elem a kids)) : badly a = false := by
  have := reach_all (P := fun n => wellTimed n = true) (fun x kids k hx hk => by
    simp only [wellTimed, Bool.and_eq_true] at hx
    exact wellTimedL_mem hx.2 hk) h hr
  simp only [wellTimed, Bool.and_eq_true, Bool.not_eq_true'] at this
  exact this.1

theorem inMs_reach {root : Node Att} (h : inMs root = true) {anc : List Att} {a : Att} {kids : List (Node Att)}
    (hr : Reach root anc (.elem a kids)) : ∀ v, a.beg = some v ∨ a.fin = some v ∨ a.dur = some v → v.delta % 1000 = 0 := by
  have := reach_all (P := fun n => inMs n = true) (fun x kids k hx hk => by
    simp only [inMs, Bool.and_eq_true] at hx
    exact inMsL_mem hx.2 hk) h hr
  simp only [inMs, Bool.and_eq_true, List.all_cons, List.all_nil, Bool.and_true] at this
  rintro v (hv | hv | hv) <;> simp [hv] at this <;> omega

theorem shaped_reach {root : Node Att} (h : shaped root = true) {anc : List Att} {a : Att} {kids : List (Node Att)}
    (hr : Reach root anc (.elem a kids)) : kids.all (fits a.kind) = true ∧ shapedL kids = true := by
  have := reach_all (P := fun n => shaped n = true) (fun x kids k hx hk => by
    simp only [shaped, Bool.and_eq_true] at hx
    exact shapedL_mem hx.2 hk) h hr
  simpa only [shaped, Bool.and_eq_true] using this

/-- A document without badly timed elements: every container covers its content. -/
theorem cov_times {avail : Int} {root : Node Att} (hs : Sane root) (hw : wellTimed root = true) :
    Cov (times avail 0 none root) := by
  intro anc x kids y ys hr hy
  have hb : ∀ anc z zs, Reach (times avail 0 none root) anc (.elem z zs) → badly z.att = false := by
    intro anc z zs hr
    obtain ⟨_, h0, _⟩ := reach_comp hr
    exact wellTimed_reach hw h0
  exact covers_kid hs hr (fun _ => hb _ _ _ hr) ⟨ys, hy, hb _ _ _ (.step hr hy)⟩

/-- What is specified on a path satisfies `P`. -/
theorem eff_forall {P : Int → Prop} {o : Option TV} (h : ∀ v, o = some v → P v.delta) {t : Int} (he : eff o = some t) : P t := by
  cases o with
  | none => simp [eff] at he
  | some v =>
    simp only [eff] at he
    split at he
    · simp at he
    · injection he with he; rw [← he]; exact h v rfl

theorem eff_ne_zero {o : Option TV} {t : Int} (he : eff o = some t) : t ≠ 0 := by
  cases o with
  | none => simp [eff] at he
  | some v =>
    simp only [eff] at he
    split at he
    · simp at he
    · next h => injection he with he; rw [← he]; exact h

/-- Attributes are not negative. -/
def NonNeg (y : Lab) : Prop := ∀ v, y.att.beg = some v ∨ y.att.fin = some v ∨ y.att.dur = some v → 0 ≤ v.delta
/-- Attributes are whole milliseconds. -/
def Whole (y : Lab) : Prop := ∀ v, y.att.beg = some v ∨ y.att.fin = some v ∨ y.att.dur = some v → v.delta % 1000 = 0

theorem begOf_nonneg {y : Lab} (h : NonNeg y) : 0 ≤ begOf y := eff_nonneg (fun v hv => h v (.inl hv))

theorem begOf_whole {y : Lab} (h : Whole y) : begOf y % 1000 = 0 := by
  unfold begOf
  cases he : eff y.att.beg with
  | none => rfl
  | some t => exact eff_forall (P := fun t => t % 1000 = 0) (fun v hv => h v (.inl hv)) he

theorem pathEnds_pos {avail : Int} (ha : 0 ≤ avail) : ∀ (path : List Lab) (base : Int), 0 ≤ base → (∀ y ∈ path, NonNeg y) →
    ∀ m ∈ pathEnds avail base path, 0 < m := by
  intro path
  induction path with
  | nil => intro base _ _ m hm; simp [pathEnds] at hm
  | cons y ys ih =>
    intro base hb h m hm
    have hy := h y List.mem_cons_self
    have hy0 := begOf_nonneg hy
    rw [pathEnds, List.mem_append] at hm
    rcases hm with hm | hm
    · unfold ownEnds at hm
      rw [List.mem_append] at hm
      rcases hm with hm | hm
      · cases he : eff y.att.fin with
        | none => rw [he] at hm; simp at hm
        | some e =>
          rw [he] at hm
          simp only [List.mem_singleton] at hm
          have h1 := eff_ne_zero he
          have h2 := eff_forall (P := fun t => 0 ≤ t) (fun v hv => hy v (.inr (.inl hv))) he
          omega
      · cases hk : y.att.kind <;> cases he : eff y.att.dur <;> rw [hk, he] at hm <;> simp at hm
        next d =>
        have h1 := eff_ne_zero he
        have h2 := eff_forall (P := fun t => 0 ≤ t) (fun v hv => hy v (.inr (.inr hv))) he
        cases hbe : eff y.att.beg with
        | none => rw [hbe] at hm; simp at hm; omega
        | some b =>
          rw [hbe] at hm
          have h3 := eff_forall (P := fun t => 0 ≤ t) (fun v hv => hy v (.inl hv)) hbe
          simp only at hm
          omega
    · exact ih (base + begOf y) (by omega) (fun z hz => h z (List.mem_cons_of_mem _ hz)) m hm

theorem pathEnds_whole {avail : Int} (ha : avail % 1000 = 0) : ∀ (path : List Lab) (base : Int), base % 1000 = 0 →
    (∀ y ∈ path, Whole y) → ∀ m ∈ pathEnds avail base path, m % 1000 = 0 := by
  intro path
  induction path with
  | nil => intro base _ _ m hm; simp [pathEnds] at hm
  | cons y ys ih =>
    intro base hb h m hm
    have hy := h y List.mem_cons_self
    have hy0 := begOf_whole hy
    rw [pathEnds, List.mem_append] at hm
    rcases hm with hm | hm
    · unfold ownEnds at hm
      rw [List.mem_append] at hm
      rcases hm with hm | hm
      · cases he : eff y.att.fin with
        | none => rw [he] at hm; simp at hm
        | some e =>
          rw [he] at hm
          simp only [List.mem_singleton] at hm
          have h2 := eff_forall (P := fun t => t % 1000 = 0) (fun v hv => hy v (.inr (.inl hv))) he
          omega
      · cases hk : y.att.kind <;> cases he : eff y.att.dur <;> rw [hk, he] at hm <;> simp at hm
        next d =>
        have h2 := eff_forall (P := fun t => t % 1000 = 0) (fun v hv => hy v (.inr (.inr hv))) he
        cases hbe : eff y.att.beg with
        | none => rw [hbe] at hm; simp at hm h2; omega
        | some b =>
          rw [hbe] at hm
          have h3 := eff_forall (P := fun t => t % 1000 = 0) (fun v hv => hy v (.inl hv)) hbe
          simp only at hm
          omega
    · exact ih (base + begOf y) (by omega) (fun z hz => h z (List.mem_cons_of_mem _ hz)) m hm

theorem absBegin_whole : ∀ (path : List Lab), (∀ y ∈ path, Whole y) → absBegin path % 1000 = 0 := by
  intro path
  induction path with
  | nil => intro _; rfl
  | cons y ys ih =>
    intro h
    have h1 := begOf_whole (h y List.mem_cons_self)
    have h2 := ih (fun z hz => h z (List.mem_cons_of_mem _ hz))
    simp only [absBegin, List.map_cons, List.sum_cons] at *
    omega

theorem path_att {avail : Int} {root : Node Att} {anc : List Lab} {x : Lab} {kids : List (Node Lab)}
    (h : Reach (times avail 0 none root) anc (.elem x kids)) : ∀ y ∈ anc ++ [x], ∃ anc0 kids0, Reach root anc0 (.elem y.att kids0) := by
  intro y hy
  rw [List.mem_append, List.mem_singleton] at hy
  rcases hy with hy | rfl
  · obtain ⟨pre, rest, rfl⟩ := List.append_of_mem hy
    obtain ⟨ks, hr⟩ := reach_prefix h pre y rest rfl
    obtain ⟨k0, h0, _⟩ := reach_comp hr
    exact ⟨_, k0, h0⟩
  · obtain ⟨k0, h0, _⟩ := reach_comp h
    exact ⟨_, k0, h0⟩

theorem leaf_noElem {avail : Int} {root : Node Att} (hsh : shaped root = true) {anc : List Lab} {x : Lab} {kids : List (Node Lab)}
    (h : Reach (times avail 0 none root) anc (.elem x kids)) (hl : Leaf (fun x : Lab => x.att.kind) x kids = true) :
    ∀ y ys, Node.elem y ys ∉ kids := by
  intro y ys hm
  have hk : Reach (times avail 0 none root) (anc ++ [x]) (.elem y ys) := .step h hm
  obtain ⟨n0, h0, heq⟩ := reach_times h
  cases n0 with
  | text s => simp [times] at heq
  | br => simp [times] at heq
  | elem a kids0 =>
    simp only [times, Node.elem.injEq] at heq
    obtain ⟨h1, h2⟩ := heq
    rw [h2, timesL_eq, List.mem_map] at hm
    obtain ⟨k0, hk0, hk1⟩ := hm
    have hfit := List.all_eq_true.mp (shaped_reach hsh h0).1 k0 hk0
    cases k0 with
    | text s => simp [times] at hk1
    | br => simp [times] at hk1
    | elem b bs =>
      simp only [times, Node.elem.injEq] at hk1
      have hyb : y.att = b := by rw [← hk1.1]
      have hxa : x.att = a := by rw [h1]
      simp only [Leaf, Bool.and_eq_true, Bool.or_eq_true, decide_eq_true_eq, Bool.not_eq_true'] at hl
      have hns := List.any_eq_false.mp hl.2 (.elem y ys) (by
        rw [h2, timesL_eq, List.mem_map]
        exact ⟨.elem b bs, hk0, by simp only [times, Node.elem.injEq]; exact ⟨hk1.1, hk1.2⟩⟩)
      rw [hxa] at hl
      simp only [isSpan, hyb] at hns
      rcases hl.1 with hp | hp <;> rw [hp] at hfit <;> simp [fits] at hfit <;> simp [hfit] at hns

/-- The times of the leaves of a validated document, whatever they contain. -/
theorem leaf_facts_reach {avail : Int} (ha : 0 ≤ avail) {root : Node Att} (hs : Sane root) (hsh : shaped root = true)
    (hw : wellTimed root = true) {anc : List Lab} {x : Lab} {kids : List (Node Lab)} (hr : Reach (times avail 0 none root) anc (.elem x kids))
    (hleaf : Leaf (fun x : Lab => x.att.kind) x kids = true) :
    0 ≤ x.comp.b ∧ (∀ m, x.comp.e = some m → 0 < m) ∧
    (inMs root = true → avail % 1000 = 0 → x.comp.b % 1000 = 0 ∧ ∀ m, x.comp.e = some m → m % 1000 = 0) := by
  have hne := leaf_noElem hsh hr hleaf
  obtain ⟨v, hv, _, hrules⟩ := C14_computed_times_partial avail root hs
  rw [validateDoc_eq] at hv
  injection hv with hv
  subst hv
  have hpath := path_att hr
  have hbad : badly x.att = false := by
    obtain ⟨_, _, h0⟩ := hpath x (by simp)
    exact wellTimed_reach hw h0
  obtain ⟨hb, he⟩ := hrules anc x kids hr (fun _ => hbad)
  have hno : ∀ y, ¬ GoodKid kids y := by rintro y ⟨ys, hy, _⟩; exact hne y ys hy
  have hb := hb.1 (.inr hno)
  have he := he.1 (.inr hno)
  have hnn : ∀ y ∈ anc ++ [x], NonNeg y := by
    intro y hy
    obtain ⟨_, _, h0⟩ := hpath y hy
    exact hs.nonneg _ _ _ h0
  have hpos := pathEnds_pos ha (anc ++ [x]) 0 (Int.le_refl _) hnn
  refine ⟨by rw [hb]; omega, ?_, ?_⟩
  · intro m hm
    rw [hm] at he
    exact hpos m he.1
  · intro hms hav
    have hwh : ∀ y ∈ anc ++ [x], Whole y := by
      intro y hy
      obtain ⟨_, _, h0⟩ := hpath y hy
      exact inMs_reach hms h0
    have h1 := absBegin_whole _ hwh
    have h2 := pathEnds_whole hav (anc ++ [x]) 0 rfl hwh
    refine ⟨by rw [hb]; omega, ?_⟩
    intro m hm
    rw [hm] at he
    exact h2 m he.1

/-- The times of the leaves of a validated document. -/
theorem leaf_facts {avail : Int} (ha : 0 ≤ avail) {root : Node Att} (hs : Sane root) (hsh : shaped root = true)
    (hw : wellTimed root = true) {l : Lab × List Item} (hl : l ∈ leavesOf (times avail 0 none root)) :
    0 ≤ l.1.comp.b ∧ (∀ m, l.1.comp.e = some m → 0 < m) ∧
    (inMs root = true → avail % 1000 = 0 → l.1.comp.b % 1000 = 0 ∧ ∀ m, l.1.comp.e = some m → m % 1000 = 0) := by
  obtain ⟨anc, kids, hr, hleaf, _, _⟩ := mem_leaves _ l hl
  exact leaf_facts_reach ha hs hsh hw hr hleaf

/-- Writing and reading back a time. -/
theorem stamp_spec {v : Env} (hrd : v.rd.Accurate) (hb : v.base ≠ .smpte) {o : Option Int} {tv : TV}
    (h : stamp v o = .ok tv) (ho : ∀ t, o = some t → 0 ≤ t) :
    ∃ t, o = some t ∧ tv.delta = Time.toMs t ∧ Time.ClockForm tv.text := by
  cases o with
  | none => simp [stamp] at h
  | some t =>
    refine ⟨t, rfl, ?_⟩
    have ht := ho t rfl
    unfold stamp at h
    cases hbase : v.base with
    | smpte => exact absurd hbase hb
    | clock =>
      rw [hbase] at h
      simp only at h
      cases hw : Time.writeLimited t with
      | none => rw [hw] at h; simp at h
      | some text =>
        rw [hw] at h
        simp only [Except.ok.injEq] at h
        obtain ⟨h1, h2⟩ := (Time.C20_limited_clock_round_trip v.rd hrd t ht).2 text hw
        rw [← h]
        simp only [h1, Option.getD_some]
        exact ⟨trivial, h2⟩
    | media =>
      rw [hbase] at h
      simp only [Except.ok.injEq] at h
      obtain ⟨h1, h2⟩ := Time.C19_full_clock_round_trip v.rd hrd t ht
      rw [← h]
      simp only [h1, Option.getD_some]
      exact ⟨trivial, h2⟩

end Verif.Doc
