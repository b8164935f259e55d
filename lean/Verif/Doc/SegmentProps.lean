import Verif.Doc.SegmentTidy

/-! Theorems about segments: C23, C24, C25, C26. -/
namespace Verif.Doc

open Verif.Time (toMs ClockForm)

/-! ### Helper lemmas -/

theorem trimBegin_eq (w : Win) (c : Comp) : trimBegin w c.b = cutBegin w c := by
  unfold trimBegin cutBegin
  cases w.b with
  | none => rfl
  | some wb => simp only; split <;> omega

theorem trimEnd_eq (w : Win) (c : Comp) : trimEnd w c.e = cutEnd w c := by
  unfold trimEnd cutEnd
  cases w.e with
  | none => cases c.e <;> rfl
  | some we =>
    cases c.e with
    | none => rfl
    | some e => simp only; split <;> simp <;> omega

/-- The leaves of a segment against the leaves of the document. -/
theorem segment_leaves {v : Env} {avail : Int} {root : Node Att} (hs : Sane root) (hsh : shaped root = true)
    (hmix : unmixed root = true) (hw : wellTimed root = true) {seg : Node Att}
    (h : segment v (times avail 0 none root) = .ok seg) :
    List.Forall₂ (LeafCopy v) ((leavesOf (times avail 0 none root)).filter (fun l => Overlaps v.win l.1.comp))
      (leavesAtt seg) := by
  have herase : erase (times avail 0 none root) = root := by
    obtain ⟨v', hv', he, _⟩ := C14_computed_times_partial avail root hs
    rw [validateDoc_eq] at hv'
    injection hv' with hv'
    rw [hv']; exact he
  rw [← pruned_eq _ (cov_times hs hw)]
  obtain ⟨a0, ks0, hroot, hbody⟩ := hs.body
  have hx : ∃ x kids, times avail 0 none root = .elem x kids ∧ x.att.kind = .body := by
    rw [hroot]; exact ⟨_, _, rfl, hbody⟩
  obtain ⟨x, kids, hx, hxk⟩ := hx
  rw [hx] at h herase ⊢
  obtain ⟨a, ks, hseg, hk, hcase⟩ := segment_cases h
  have hmain := seg_leaves (.elem x kids) _ hseg (by rw [herase]; exact hsh) (by rw [herase]; exact hmix)
  simp only [Option.toList, leavesL, List.append_nil] at hmain
  rcases hcase with ⟨_, rfl⟩ | ⟨rfl, b, e, _, _, rfl⟩
  · exact hmain
  · have h1 : leaves Att.kind (Node.elem a []) = [] := by simp [leaves, Leaf, hk, hxk, leavesL]
    have h2 : leavesAtt (Node.elem { a with beg := some b, fin := some e } []) = [] := by
      simp [leavesAtt, leaves, Leaf, hk, hxk, leavesL]
    rw [h1] at hmain
    rw [h2]
    exact hmain

/-! ### C23 -/

/-- A leaf cut to the window: the same content, and as explicit times the later begin and the earlier
end (which must exist), written as clock times rounded down to a millisecond. -/
def CutTo (w : Win) (l : Lab × List Item) (s : Att × List Item) : Prop :=
  s.2 = l.2 ∧ s.1.kind = l.1.att.kind ∧ s.1.dur = none ∧
  ∃ b e te, s.1.beg = some b ∧ s.1.fin = some e ∧ cutEnd w l.1.comp = some te ∧
    b.delta = toMs (cutBegin w l.1.comp) ∧ e.delta = toMs te ∧ ClockForm b.text ∧ ClockForm e.text

/-- An interval that is not empty overlaps a window that is not empty exactly when some instant lies
in both. -/
theorem overlaps_iff (w : Win) (c : Comp) (hc : ∀ e, c.e = some e → c.b < e)
    (hw : ∀ b e, w.b = some b → w.e = some e → b < e) :
    Overlaps w c = true ↔ ∃ t, w.at t = true ∧ c.at t = true := by
  unfold Overlaps Win.at Comp.at
  constructor
  · intro h
    cases hb : w.b with
    | none => exact ⟨c.b, by cases he : w.e <;> cases hce : c.e <;> simp_all⟩
    | some b => exact ⟨max b c.b, by cases he : w.e <;> cases hce : c.e <;> simp_all <;> omega⟩
  · rintro ⟨t, h1, h2⟩
    cases hb : w.b <;> cases he : w.e <;> cases hce : c.e <;> simp_all <;> omega

/-- C23.  The leaves of a segment are, in document order and with unchanged content, exactly the
leaves of the validated document whose computed interval overlaps the window, each cut to the window.
Assumes what the schema enforces (`shaped`, `Sane`), a clock or media time base, no mixing of spans
with text in one element (`C24_false_mixed_content`) and no badly timed elements
(`C23_false_text_order`). -/
theorem C23_segment_leaves_partial (v : Env) (hrd : v.rd.Accurate) (hbase : v.base ≠ .smpte) (avail : Int)
    (ha : 0 ≤ avail) (root : Node Att) (hs : Sane root) (hsh : shaped root = true) (hmix : unmixed root = true)
    (hw : wellTimed root = true)
    (doc : Node Lab) (hdoc : validateDoc avail root = .ok doc) (seg : Node Att) (hseg : segment v doc = .ok seg) :
    List.Forall₂ (CutTo v.win) ((leavesOf doc).filter (fun l => Overlaps v.win l.1.comp)) (leavesAtt seg) := by
  rw [validateDoc_eq] at hdoc
  injection hdoc with hdoc
  subst hdoc
  have hall := segment_leaves hs hsh hmix hw hseg
  have hmem : ∀ l ∈ (leavesOf (times avail 0 none root)).filter (fun l => Overlaps v.win l.1.comp),
      0 ≤ l.1.comp.b ∧ (∀ m, l.1.comp.e = some m → 0 < m) ∧ Overlaps v.win l.1.comp = true := by
    intro l hl
    rw [List.mem_filter] at hl
    obtain ⟨h1, h2, _⟩ := leaf_facts ha hs hsh hw hl.1
    exact ⟨h1, h2, hl.2⟩
  generalize (leavesOf (times avail 0 none root)).filter (fun l => Overlaps v.win l.1.comp) = L at hall hmem
  generalize leavesAtt seg = S at hall
  clear hseg
  induction hall with
  | nil => exact .nil
  | @cons l s L S hl _ ih =>
    refine .cons ?_ (ih (fun l' h' => hmem l' (List.mem_cons_of_mem _ h')))
    obtain ⟨h1, h2, h3⟩ := hmem l List.mem_cons_self
    obtain ⟨hc, hk, _, hd, b, e, hb, he, hsb, hse⟩ := hl
    rw [trimBegin_eq] at hb
    rw [trimEnd_eq] at he
    obtain ⟨tb, htb, hb1, hb2⟩ := stamp_spec hrd hbase hb (by
      intro t ht
      injection ht with ht
      rw [← ht]
      unfold cutBegin
      cases hwb : v.win.b with
      | none => simpa using h1
      | some wb => simp only; omega)
    obtain ⟨te, hte, he1, he2⟩ := stamp_spec hrd hbase he (by
      intro t ht
      unfold cutEnd at ht
      unfold Overlaps at h3
      cases hwe : v.win.e with
      | none =>
        rw [hwe] at ht
        have := h2 t ht
        omega
      | some we =>
        rw [hwe] at ht h3
        simp only [Bool.and_eq_true, decide_eq_true_eq] at h3
        cases hce : l.1.comp.e with
        | none => rw [hce] at ht; simp at ht; omega
        | some m =>
          have := h2 m hce
          rw [hce] at ht
          simp at ht
          omega)
    injection htb with htb
    exact ⟨hc, hk, hd, b, e, te, hsb, hse, hte, by rw [hb1, htb], he1, hb2, he2⟩

theorem exists_ok_bind {ε α β : Type} {x : Except ε α} {f : α → Except ε β} {a : α} (h : x = .ok a)
    (h' : ∃ b, f a = .ok b) : ∃ b, x >>= f = .ok b := by
  subst h; exact h'

mutual
theorem segNode_ok {v : Env} :
    ∀ (n : Node Lab), (∀ anc x kids, Reach n anc (.elem x kids) → (∀ z ∈ anc ++ [x], inSeg v.win z.comp = true) →
      (∃ a, copyAtt v x.att = .ok a) ∧ (∃ b, stamp v (some (trimBegin v.win x.comp.b)) = .ok b) ∧
        ∃ e, stamp v (trimEnd v.win x.comp.e) = .ok e) →
    ∃ o, segNode v n = .ok o
  | .text s, _ => ⟨_, rfl⟩
  | .br, _ => ⟨_, rfl⟩
  | .elem x kids, h => by
    rw [segNode]
    by_cases hin : inSeg v.win x.comp = true
    · rw [if_pos hin]
      obtain ⟨⟨a, ha⟩, hst⟩ := h [] x kids .here (by simpa using hin)
      refine exists_ok_bind ha ?_
      obtain ⟨ks, hks⟩ := segList_ok kids (fun k hk anc y ys hr hz => h (x :: anc) y ys (by
        have := reach_trans (x := x) (root := .elem x kids) (.here) hk hr
        simpa using this) (by
        intro z hzm
        rw [List.cons_append, List.mem_cons] at hzm
        rcases hzm with rfl | hzm
        · exact hin
        · exact hz z hzm))
      refine exists_ok_bind hks ?_
      split
      · exact ⟨none, rfl⟩
      · have : ∃ a', leafTiming v x.comp a ks = .ok a' := by
          unfold leafTiming
          split
          · obtain ⟨⟨b, hb⟩, e, he⟩ := hst
            exact exists_ok_bind hb (exists_ok_bind he ⟨_, rfl⟩)
          · exact ⟨_, rfl⟩
        obtain ⟨a', ha'⟩ := this
        exact exists_ok_bind ha' ⟨_, rfl⟩
    · rw [if_neg hin]
      exact ⟨_, rfl⟩
theorem segList_ok {v : Env} :
    ∀ (ns : List (Node Lab)), (∀ k ∈ ns, ∀ anc x kids, Reach k anc (.elem x kids) →
      (∀ z ∈ anc ++ [x], inSeg v.win z.comp = true) → (∃ a, copyAtt v x.att = .ok a) ∧
        (∃ b, stamp v (some (trimBegin v.win x.comp.b)) = .ok b) ∧ ∃ e, stamp v (trimEnd v.win x.comp.e) = .ok e) →
    ∃ ks, segList v ns = .ok ks
  | [], _ => ⟨_, rfl⟩
  | k :: ks, h => by
    rw [segList]
    obtain ⟨o, ho⟩ := segNode_ok k (h k List.mem_cons_self)
    obtain ⟨rest, hr⟩ := segList_ok ks (fun k' hk' => h k' (List.mem_cons_of_mem _ hk'))
    exact exists_ok_bind ho (exists_ok_bind hr ⟨_, rfl⟩)
end

theorem copyRefs_ok {v : Env} : ∀ {ss : List (List Char)}, (∀ s ∈ ss, (v.ref s).isSome = true) → ∃ r, copyRefs v ss = .ok r := by
  intro ss
  induction ss with
  | nil => intro _; exact ⟨_, rfl⟩
  | cons s ss ih =>
    intro h
    obtain ⟨r, hr⟩ := ih (fun t ht => h t (List.mem_cons_of_mem _ ht))
    have := h s List.mem_cons_self
    rw [copyRefs]
    cases hs : v.ref s with
    | none => rw [hs] at this; simp at this
    | some s' => exact exists_ok_bind hr ⟨_, rfl⟩

/-- Times below a hundred hours can be written, on a media time base all. -/
theorem stamp_below {v : Env} {t : Int} (hbase : v.base = .media ∨ v.base = .clock ∧ t < 100 * 3600000000) :
    ∃ b, stamp v (some t) = .ok b := by
  unfold stamp
  rcases hbase with hb | ⟨hb, h100⟩
  · rw [hb]; exact ⟨_, rfl⟩
  · rw [hb]
    simp only
    have : Time.writeLimited t = some (Time.writeFull t) := by
      unfold Time.writeLimited Time.members
      rw [if_neg]
      simp only
      omega
    rw [this]
    exact ⟨_, rfl⟩

/-- The copy of an element succeeds when its references were copied. -/
theorem copyAtt_ok {v : Env} {y : Lab} (h1 : ∀ s ∈ y.att.style, (v.ref s).isSome = true)
    (h2 : ∀ r, hasRegion y.att.kind = true → y.att.region = some r → (v.ref r).isSome = true) : ∃ a, copyAtt v y.att = .ok a := by
  unfold copyAtt
  have : ∃ r, copyRegion v (if hasRegion y.att.kind then y.att.region else none) = .ok r := by
    split
    · rename_i hhas
      cases hreg : y.att.region with
      | none => exact ⟨_, rfl⟩
      | some r =>
        have := h2 r hhas hreg
        unfold copyRegion
        cases hr : v.ref r with
        | none => rw [hr] at this; simp at this
        | some r' => simp only [hr]; exact ⟨_, rfl⟩
    · exact ⟨_, rfl⟩
  obtain ⟨r, hr⟩ := this
  obtain ⟨ss, hss⟩ := copyRefs_ok h1
  exact exists_ok_bind hr (exists_ok_bind hss ⟨_, rfl⟩)


/-- The copying of the elements succeeds in a window that may be open at the front. -/
theorem segNode_exists (v : Env) (wb : Option Int) (we : Int) (hwin : v.win = ⟨wb, some we⟩) (hlt : ∀ b, wb = some b → b < we)
    (hbase : v.base = .media ∨ v.base = .clock ∧ we < 100 * 3600000000) (n : Node Lab)
    (hrefs : ∀ anc y ys, Reach n anc (.elem y ys) → (∀ z ∈ anc ++ [y], Overlaps v.win z.comp = true) →
      (∀ s ∈ y.att.style, (v.ref s).isSome = true) ∧
        ∀ r, hasRegion y.att.kind = true → y.att.region = some r → (v.ref r).isSome = true) :
    ∃ o, segNode v n = .ok o := by
  have hbase' : ∀ t, t ≤ we → v.base = .media ∨ v.base = .clock ∧ t < 100 * 3600000000 := by
    intro t ht
    rcases hbase with hb | ⟨hb, h1⟩
    · exact .inl hb
    · exact .inr ⟨hb, by omega⟩
  refine segNode_ok n ?_
  intro anc y ys hr hz
  obtain ⟨h1, h2⟩ := hrefs anc y ys hr (fun z hzm => by rw [← inSeg_eq]; exact hz z hzm)
  have hy := hz y (by simp)
  rw [inSeg_eq, hwin] at hy
  unfold Overlaps at hy
  simp only [Bool.and_eq_true, decide_eq_true_eq] at hy
  refine ⟨copyAtt_ok h1 h2, stamp_below (hbase' _ ?_), ?_⟩
  · rw [trimBegin_eq, hwin]
    unfold cutBegin
    cases hw : wb with
    | none => simp only; omega
    | some b => have := hlt b hw; simp only; omega
  · rw [trimEnd_eq, hwin]
    unfold cutEnd
    cases hce : y.comp.e with
    | none => exact stamp_below (hbase' we (Int.le_refl _))
    | some e => exact stamp_below (hbase' _ (by omega))

/-- Extraction then succeeds if the copied body has content. -/
theorem segment_of_node {v : Env} {x : Lab} {kids : List (Node Lab)} {o : Option (Node Att)} (h : segNode v (.elem x kids) = .ok o)
    (hbody : x.att.kind = .body) (ho : Overlaps v.win x.comp = true) :
    (∃ seg, segment v (.elem x kids) = .ok seg) ∨ ∃ a, o = some (.elem a []) ∧ a.kind = .body := by
  rcases segNode_elem h with ⟨hin, _⟩ | ⟨_, a, ks, hca, _, ⟨he, _⟩ | ⟨_, a', hlt, rfl⟩⟩
  · rw [inSeg_eq, ho] at hin; simp at hin
  · rw [hbody] at he; simp [isEmpty] at he
  · cases ks with
    | nil => exact .inr ⟨a', rfl, by rw [(leafTiming_kind hlt).1, copyAtt_kind hca, hbody]⟩
    | cons k ks => exact .inl (by unfold segment; exact exists_ok_bind h ⟨_, rfl⟩)

/-- If the copied body has no content, the document shows nothing in the window. -/
theorem empty_shown {v : Env} {n : Node Lab} (hcov : Cov n) (hsh : shaped (erase n) = true) (hmix : unmixed (erase n) = true)
    {a : Att} (ha : a.kind = .body) (h : segNode v n = .ok (some (.elem a []))) {t : Int} (ht : v.win.at t = true) : shownAt n t = [] := by
  have hleaves := seg_leaves n _ h hsh hmix
  have h1 : leavesL Att.kind (some (Node.elem a [])).toList = [] := by
    simp [Option.toList, leavesL, leaves, Leaf, ha]
  rw [h1] at hleaves
  have hleaves : pruned v.win n = [] := by
    cases hp : pruned v.win n with
    | nil => rfl
    | cons z zs => rw [hp] at hleaves; cases hleaves
  rw [pruned_eq _ hcov, List.filter_eq_nil_iff] at hleaves
  unfold shownAt
  rw [List.map_eq_nil_iff, List.filter_eq_nil_iff]
  intro l hl hat
  refine hleaves l hl ?_
  unfold Overlaps
  unfold Win.at at ht
  unfold Comp.at at hat
  cases hb : v.win.b <;> cases he : v.win.e <;> cases hce : l.1.comp.e <;> simp_all <;> omega

/-- C23, the extraction itself: for a window `[wb, we)` with `wb < we` (below a hundred hours on a
clock time base) that the body overlaps, extraction succeeds if all style and region references of the
elements inside the window were copied. -/
theorem C23_segment_exists (v : Env) (wb we : Int) (hwin : v.win = ⟨some wb, some we⟩) (hlt : wb < we)
    (hbase : v.base = .media ∨ v.base = .clock ∧ we < 100 * 3600000000) (x : Lab) (kids : List (Node Lab))
    (hbody : x.att.kind = .body) (ho : Overlaps v.win x.comp = true)
    (hrefs : ∀ anc y ys, Reach (.elem x kids) anc (.elem y ys) → (∀ z ∈ anc ++ [y], Overlaps v.win z.comp = true) →
      (∀ s ∈ y.att.style, (v.ref s).isSome = true) ∧
        ∀ r, hasRegion y.att.kind = true → y.att.region = some r → (v.ref r).isSome = true) :
    ∃ seg, segment v (.elem x kids) = .ok seg := by
  obtain ⟨o, hseg⟩ := segNode_exists v (some wb) we hwin (by intro b hb; injection hb with hb; omega) hbase (.elem x kids) hrefs
  rcases segment_of_node hseg hbody ho with h | ⟨a, rfl, _⟩
  · exact h
  · unfold segment
    refine exists_ok_bind hseg ?_
    simp only [hwin]
    obtain ⟨b, hb⟩ := stamp_below (v := v) (t := wb) (by
      rcases hbase with hb | ⟨hb, h1⟩
      · exact .inl hb
      · exact .inr ⟨hb, by omega⟩)
    obtain ⟨e, he⟩ := stamp_below (v := v) (t := we) hbase
    exact exists_ok_bind hb (exists_ok_bind he ⟨_, rfl⟩)

/-- Extraction from a media time base document in which every reference was copied. -/
def exEnv (wb we : Int) : Env :=
  { win := ⟨some wb, some we⟩, base := .media, rd := Time.exactReader, pre := some 7,
    ref := fun s => some (seqPrefix 7 s) }

/-- Example document: a div from 1s with a p of two timed spans, an open p and a p with no content. -/
def segDoc : Node Att :=
  .elem { kind := .body } [
    .elem { kind := .div, beg := sec 1, style := ["s1".toList] } [
      .elem { kind := .p, id := some "p1".toList, region := some "r1".toList } [
        .text " ".toList,
        .elem { kind := .span, beg := sec 1, fin := sec 3 } [.text "a".toList, .br, .text "b".toList],
        .text " ".toList,
        .elem { kind := .span, beg := sec 2, fin := sec 5 } [.text "c".toList]],
      .elem { kind := .p, id := some "p2".toList, beg := sec 4, fin := sec 8 } [.text "d".toList],
      .elem { kind := .p, beg := sec 2, fin := sec 4 } [.text " ".toList]]]

theorem segDoc_sane : Sane segDoc := sane_of rfl (by decide) (by decide)

/-- The hypotheses hold of the example, and the segment of `[3s, 5s)` has the three visible leaves. -/
example : Sane segDoc ∧ shaped segDoc = true ∧ unmixed segDoc = true ∧ wellTimed segDoc = true ∧ inMs segDoc = true ∧
    ((validateDoc 0 segDoc).toOption.bind (fun d => (segment (exEnv 3000000 5500000) d).toOption)).map
      (fun s => (leavesAtt s).map (fun l => (l.1.beg.map TV.delta, l.1.fin.map TV.delta, l.2))) =
    some [(some 3000000, some 4000000, [.text ['a'], .br, .text ['b']]),
          (some 3000000, some 5500000, [.text ['c']]),
          (some 5000000, some 5500000, [.text ['d']])] :=
  ⟨segDoc_sane, by decide, by decide, by decide, by decide, by decide +kernel⟩

/-- Times are compared as text, so the p of the second line is taken to end before it begins, the
document to end at 2s, and asking for the window in which that p is shown fails. -/
theorem C23_false_text_order : ∃ root, Sane root ∧ shaped root = true ∧ unmixed root = true ∧
    ∃ doc, validateDoc 0 root = .ok doc ∧
      (∃ l ∈ leavesOf doc, l.1.comp = ⟨9000000, some 10000000⟩ ∧ l.2 = [.text "y".toList]) ∧
      segment (exEnv 9000000 10000000) doc = .error .attributeError :=
  ⟨.elem { kind := .body } [.elem { kind := .div } [
      .elem { kind := .p, beg := sec 1, fin := sec 2 } [.text "x".toList],
      .elem { kind := .p, beg := sec 9, fin := sec 10 } [.text "y".toList]]],
    sane_of rfl (by decide) (by decide), by decide, by decide, _, validateDoc_eq _ _,
    ⟨({ att := { kind := .p, beg := sec 9, fin := sec 10 }, comp := ⟨9000000, some 10000000⟩ }, [.text "y".toList]),
      by decide +kernel, rfl, rfl⟩, rfl⟩

/-! ### C24 -/

theorem items_timesL (avail sync : Int) (bound : Option Int) (kids : List (Node Att)) :
    items (timesL avail sync bound kids) = items kids := by
  induction kids with
  | nil => rfl
  | cons k ks ih => cases k <;> simp [timesL, times, items, ih]

theorem isSpan_timesL (avail sync : Int) (bound : Option Int) (kids : List (Node Att)) :
    (timesL avail sync bound kids).any (isSpan (fun x : Lab => x.att.kind)) = kids.any (isSpan Att.kind) := by
  induction kids with
  | nil => rfl
  | cons k ks ih => cases k <;> simp [timesL, times, isSpan, ih]

theorem timedKids_noElem {kids : List (Node Lab)} (h : ∀ x kk, Node.elem x kk ∉ kids) : timedKids kids = [] := by
  rw [timedKids_nil]
  rintro y ⟨ys, hy, _⟩
  exact h y ys hy

mutual
/-- The leaves of a tidy document, validated on its own. -/
theorem times_leaves : ∀ (n : Node Att), shaped n = true → tidy n = true →
    leavesOf (times 0 0 none n) = (leavesAtt n).map (fun l => (⟨l.1, compOf 0 0 none l.1 []⟩, l.2))
  | .text s, _, _ => rfl
  | .br, _, _ => rfl
  | .elem a kids, hs, ht => by
    simp only [shaped, tidy, Bool.and_eq_true] at hs ht
    simp only [times, leavesOf, leavesAtt, leaves]
    have hleaf : ∀ c sync bound, Leaf (fun x : Lab => x.att.kind) { att := a, comp := c } (timesL 0 sync bound kids) =
        Leaf Att.kind a kids := by
      intro c sync bound
      simp only [Leaf, isSpan_timesL]
    rw [hleaf]
    by_cases hl : Leaf Att.kind a kids = true
    · rw [if_pos hl, if_pos hl, items_timesL]
      by_cases hv : Visible (items kids) = true
      · rw [if_pos hv, if_pos hv]
        simp only [List.map_cons, List.map_nil, List.cons.injEq, and_true, Prod.mk.injEq, Lab.mk.injEq, true_and]
        congr 1
        apply timedKids_noElem
        intro y ys hy
        simp only [Leaf, Bool.and_eq_true, Bool.or_eq_true, decide_eq_true_eq, Bool.not_eq_true'] at hl
        have hne := noElem_of_noSpan hl.1 hs.1 hl.2
        rw [timesL_eq, List.mem_map] at hy
        obtain ⟨k, hk, hky⟩ := hy
        cases k with
        | text s => simp [times] at hky
        | br => simp [times] at hky
        | elem b bs => exact hne b bs hk
      · rw [if_neg hv, if_neg hv]; rfl
    · rw [if_neg hl, if_neg hl]
      have hn := ht.1.2
      rw [Bool.or_eq_true] at hn
      rcases hn with hn | hn
      · exact absurd hn hl
      · simp only [decide_eq_true_eq] at hn
        obtain ⟨h1, h2, h3⟩ := hn
        have e1 : eff a.beg = none := by rw [h1]; rfl
        have e2 : ownEnd 0 0 none a = none := by
          unfold ownEnd preEnd baseEnd
          rw [h2, h3]
          cases a.kind <;> rfl
        rw [e1, e2]
        simp only [below, Option.getD_none, Int.add_zero]
        exact timesL_leaves kids hs.2 ht.2
theorem timesL_leaves : ∀ (ns : List (Node Att)), shapedL ns = true → tidyL ns = true →
    leavesL (fun x : Lab => x.att.kind) (timesL 0 0 none ns) =
      (leavesL Att.kind ns).map (fun l => (⟨l.1, compOf 0 0 none l.1 []⟩, l.2))
  | [], _, _ => rfl
  | k :: ks, hs, ht => by
    simp only [shapedL, tidyL, Bool.and_eq_true] at hs ht
    rw [timesL, leavesL, leavesL, List.map_append, timesL_leaves ks hs.2 ht.2]
    congr 1
    exact times_leaves k hs.1 ht.1
end

/-- A segment is shaped, and tidy unless it is empty. -/
theorem segment_tidy {v : Env} {x : Lab} {kids : List (Node Lab)} (hb : x.att.kind = .body)
    (hsh : shaped (erase (.elem x kids)) = true) {seg : Node Att} (h : segment v (.elem x kids) = .ok seg) :
    shaped seg = true ∧ ((∃ a, seg = .elem a [] ∧ a.kind = .body) ∨ tidy seg = true) := by
  obtain ⟨a, ks, hseg, hk, hcase⟩ := segment_cases h
  obtain ⟨h1, h2⟩ := seg_tidy _ _ hseg hsh
  simp only [Option.toList, shapedL, tidyL, Bool.and_true] at h1 h2
  rcases hcase with ⟨_, rfl⟩ | ⟨rfl, b, e, _, _, rfl⟩
  · exact ⟨h1, .inr h2⟩
  · exact ⟨by simp [shaped, shapedL], .inl ⟨_, rfl, by rw [← hb, ← hk]⟩⟩

theorem filter_map_forall₂ {α β γ : Type} {R : α → β → Prop} {p : α → Bool} {q : β → Bool} {f : α → γ} {g : β → γ}
    {A : List α} {B : List β} (h : List.Forall₂ R A B) (hA : ∀ a ∈ A, ∀ b, R a b → p a = q b ∧ f a = g b) :
    (A.filter p).map f = (B.filter q).map g := by
  induction h with
  | nil => rfl
  | @cons a b A B hab _ ih =>
    obtain ⟨h1, h2⟩ := hA a List.mem_cons_self b hab
    have ih := ih (fun a' ha' => hA a' (List.mem_cons_of_mem _ ha'))
    by_cases hp : p a = true
    · rw [List.filter_cons_of_pos hp, List.filter_cons_of_pos (by rw [← h1]; exact hp), List.map_cons, List.map_cons, h2, ih]
    · rw [List.filter_cons_of_neg hp, List.filter_cons_of_neg (by rw [← h1]; exact hp), ih]

theorem forall₂_mapR {α β γ : Type} {R : α → β → Prop} {S : α → γ → Prop} {f : β → γ} {A : List α} {B : List β}
    (h : List.Forall₂ R A B) (hA : ∀ a ∈ A, ∀ b, R a b → S a (f b)) : List.Forall₂ S A (B.map f) := by
  induction h with
  | nil => exact .nil
  | @cons a b A B hab _ ih =>
    exact .cons (hA a List.mem_cons_self b hab) (ih (fun a' ha' => hA a' (List.mem_cons_of_mem _ ha')))

/-- The leaves of a validated segment: those of the document that overlap the window, each active in the window when it is
active in the document. -/
theorem segment_instants (v : Env) (hrd : v.rd.Accurate) (hbase : v.base ≠ .smpte) (avail : Int)
    (ha : 0 ≤ avail) (root : Node Att) (hs : Sane root) (hsh : shaped root = true) (hmix : unmixed root = true)
    (hw : wellTimed root = true) (hms : inMs root = true) (hams : avail % 1000 = 0)
    (hwms : ∀ t, v.win.b = some t ∨ v.win.e = some t → t % 1000 = 0)
    (doc : Node Lab) (hdoc : validateDoc avail root = .ok doc) (seg : Node Att) (hseg : segment v doc = .ok seg) :
    List.Forall₂ (fun l s => s.2 = l.2 ∧ ∀ t, s.1.comp.at t = (v.win.at t && l.1.comp.at t))
      ((leavesOf doc).filter (fun l => Overlaps v.win l.1.comp)) (leavesOf (times 0 0 none seg)) := by
  have hC23 := C23_segment_leaves_partial v hrd hbase avail ha root hs hsh hmix hw doc hdoc seg hseg
  rw [validateDoc_eq] at hdoc
  injection hdoc with hdoc
  subst hdoc
  have herase : erase (times avail 0 none root) = root := by
    obtain ⟨v', hv', he, _⟩ := C14_computed_times_partial avail root hs
    rw [validateDoc_eq] at hv'
    injection hv' with hv'
    rw [hv']; exact he
  have hleaves : leavesOf (times 0 0 none seg) = (leavesAtt seg).map (fun l => (⟨l.1, compOf 0 0 none l.1 []⟩, l.2)) := by
    obtain ⟨a0, ks0, hroot, hbody⟩ := hs.body
    have hx : ∃ x kids, times avail 0 none root = .elem x kids ∧ x.att.kind = .body := by
      rw [hroot]; exact ⟨_, _, rfl, hbody⟩
    obtain ⟨x, kids, hx, hxk⟩ := hx
    rw [hx] at hseg herase
    obtain ⟨h1, ⟨a, rfl, hk⟩ | h2⟩ := segment_tidy hxk (by rw [herase]; exact hsh) hseg
    · simp [times, timesL, leavesOf, leavesAtt, leaves, leavesL, Leaf, hk]
    · exact times_leaves seg h1 h2
  have hmem : ∀ l ∈ (leavesOf (times avail 0 none root)).filter (fun l => Overlaps v.win l.1.comp),
      0 ≤ l.1.comp.b ∧ (∀ m, l.1.comp.e = some m → 0 < m) ∧ Overlaps v.win l.1.comp = true ∧
      l.1.comp.b % 1000 = 0 ∧ (∀ m, l.1.comp.e = some m → m % 1000 = 0) ∧ (l.1.att.kind = .p ∨ l.1.att.kind = .span) := by
    intro l hl
    rw [List.mem_filter] at hl
    obtain ⟨h1, h2, h3⟩ := leaf_facts ha hs hsh hw hl.1
    obtain ⟨h4, h5⟩ := h3 hms hams
    obtain ⟨_, _, _, hleaf, _⟩ := mem_leaves _ l hl.1
    simp only [Leaf, Bool.and_eq_true, Bool.or_eq_true, decide_eq_true_eq] at hleaf
    exact ⟨h1, h2, hl.2, h4, h5, hleaf.1⟩
  rw [hleaves]
  refine forall₂_mapR hC23 ?_
  intro l hl s hcut
  obtain ⟨h1, h2, h3, h4, h5, h6⟩ := hmem l hl
  obtain ⟨hc, hk, _, b, e, te, hsb, hse, hte, hb1, he1, _, _⟩ := hcut
  refine ⟨hc, fun t => Eq.symm ?_⟩
  · simp only
    -- the computed times of the copy
    have hmsb : toMs (cutBegin v.win l.1.comp) = cutBegin v.win l.1.comp := by
      unfold toMs cutBegin
      cases hwb : v.win.b with
      | none => simp only; omega
      | some wb => have := hwms wb (.inl hwb); simp only; omega
    have htepos : 0 < te ∧ te % 1000 = 0 := by
      unfold cutEnd at hte
      unfold Overlaps at h3
      cases hwe : v.win.e with
      | none => rw [hwe] at hte; exact ⟨h2 te hte, h5 te hte⟩
      | some we =>
        have hwem := hwms we (.inr hwe)
        rw [hwe] at hte h3
        simp only [Bool.and_eq_true, decide_eq_true_eq] at h3
        cases hce : l.1.comp.e with
        | none => rw [hce] at hte; simp at hte; omega
        | some m =>
          have := h2 m hce
          have := h5 m hce
          rw [hce] at hte
          simp at hte
          omega
    have hmse : toMs te = te := by unfold toMs; omega
    rw [hmsb] at hb1
    rw [hmse] at he1
    have hcomp : compOf 0 0 none s.1 [] = ⟨cutBegin v.win l.1.comp, some te⟩ := by
      have hown : ownEnd 0 0 none s.1 = some te := by
        unfold ownEnd preEnd baseEnd
        rw [hse]
        have : eff (some e) = some te := by simp only [eff, he1]; rw [if_neg (by omega)]
        rw [this]
        rw [hk]
        rcases h6 with h6 | h6 <;> rw [h6] <;> simp
      have hnb : ¬ (s.1.kind = .body) := by rw [hk]; rcases h6 with h6 | h6 <;> rw [h6] <;> simp
      unfold compOf
      rw [hown, hsb]
      simp only [postBegin, ite_self, hnb, false_and, if_false]
      simp only [eff, hb1]
      by_cases hz : cutBegin v.win l.1.comp = 0
      · simp [hz]
      · simp [hz]
    rw [hcomp]
    -- activity
    unfold cutEnd at hte
    unfold Win.at Comp.at cutBegin
    cases hwb : v.win.b <;> cases hwe : v.win.e <;> cases hce : l.1.comp.e <;> rw [hwe, hce] at hte <;>
      simp at hte <;> simp only [Bool.true_and, Bool.and_true] <;>
      rw [Bool.eq_iff_iff] <;> simp only [Bool.and_eq_true, decide_eq_true_eq] <;> omega

/-- C24.  A segment, validated as a document of its own, shows at every instant of the window what the
document shows, and outside the window nothing.  Assumes in addition to C23 that all times are whole
milliseconds (`C24_false_below_a_millisecond`), since the written times have that precision. -/
theorem C24_segment_shows_the_same_partial (v : Env) (hrd : v.rd.Accurate) (hbase : v.base ≠ .smpte) (avail : Int)
    (ha : 0 ≤ avail) (root : Node Att) (hs : Sane root) (hsh : shaped root = true) (hmix : unmixed root = true)
    (hw : wellTimed root = true) (hms : inMs root = true) (hams : avail % 1000 = 0)
    (hwms : ∀ t, v.win.b = some t ∨ v.win.e = some t → t % 1000 = 0)
    (doc : Node Lab) (hdoc : validateDoc avail root = .ok doc) (seg : Node Att) (hseg : segment v doc = .ok seg) :
    ∃ segdoc, validateDoc 0 seg = .ok segdoc ∧
      ∀ t, shownAt segdoc t = if v.win.at t then shownAt doc t else [] := by
  refine ⟨_, validateDoc_eq 0 seg, ?_⟩
  have hall := segment_instants v hrd hbase avail ha root hs hsh hmix hw hms hams hwms doc hdoc seg hseg
  intro t
  have key : shownAt (times 0 0 none seg) t =
      (((leavesOf doc).filter (fun l => Overlaps v.win l.1.comp)).filter
        (fun l => v.win.at t && l.1.comp.at t)).map (·.2) := by
    unfold shownAt
    exact (filter_map_forall₂ hall (fun l _ s hR => ⟨(hR.2 t).symm, hR.1.symm⟩)).symm
  rw [key, List.filter_filter]
  by_cases hin : v.win.at t = true
  · rw [if_pos hin]
    unfold shownAt
    congr 1
    apply List.filter_congr
    intro l _
    rw [hin, Bool.true_and]
    by_cases hat : l.1.comp.at t = true
    · rw [hat, Bool.true_and]
      unfold Overlaps
      unfold Win.at at hin
      unfold Comp.at at hat
      cases hwb : v.win.b <;> cases hwe : v.win.e <;> cases hce : l.1.comp.e <;> simp_all <;> omega
    · simp [hat]
  · rw [if_neg hin]
    simp [hin]

example : (exEnv 3000000 5500000).win.at 3500000 = true ∧
    ((validateDoc 0 segDoc).toOption.bind (fun d => (segment (exEnv 3000000 5500000) d).toOption.map (fun s =>
      (shownAt d 3500000, (validateDoc 0 s).toOption.map (shownAt · 3500000))))) =
    some ([[.text ['a'], .br, .text ['b']], [.text ['c']]],
      some [[.text ['a'], .br, .text ['b']], [.text ['c']]]) ∧
    (∀ t, (exEnv 3000000 5500000).win.b = some t ∨ (exEnv 3000000 5500000).win.e = some t → t % 1000 = 0) :=
  ⟨by decide, by decide +kernel, by rintro t (h | h) <;> (injection h with h; omega)⟩

mutual
/-- The text items of a document with the element directly around them. -/
def textItems (parent : List Lab) : Node Lab → List (Lab × Item)
  | .elem x kids => textItemsL [x] kids
  | .text s => parent.map (fun x => (x, .text s))
  | .br => parent.map (fun x => (x, .br))
def textItemsL (parent : List Lab) : List (Node Lab) → List (Lab × Item)
  | [] => []
  | k :: ks => textItems parent k ++ textItemsL parent ks
end

/-- The text items active at `t`. -/
def textAt (n : Node Lab) (t : Int) : List Item := ((textItems [] n).filter (fun l => l.1.comp.at t)).map (·.2)

/-- With text beside a span in the same p, the text loses the p's own times: it is shown with the span
only. -/
theorem C24_false_mixed_content : ∃ root, Sane root ∧ shaped root = true ∧ wellTimed root = true ∧ inMs root = true ∧
    ∃ doc seg segdoc, validateDoc 0 root = .ok doc ∧ segment (exEnv 4000000 7000000) doc = .ok seg ∧
      validateDoc 0 seg = .ok segdoc ∧ textAt doc 4500000 = [.text "a".toList] ∧ textAt segdoc 4500000 = [] :=
  ⟨.elem { kind := .body } [.elem { kind := .div } [
      .elem { kind := .p, beg := sec 1, fin := sec 9 } [.text "a".toList,
        .elem { kind := .span, beg := sec 4, fin := sec 5 } [.text "b".toList]]]],
    sane_of rfl (by decide) (by decide), by decide, by decide, by decide, _, _, _, validateDoc_eq _ _, rfl, validateDoc_eq _ _,
    by decide +kernel, by decide +kernel⟩

/-- Written times have millisecond precision: a p that begins half a millisecond later than the
instant 1s is shown by the segment already at 1s. -/
theorem C24_false_below_a_millisecond : ∃ root, Sane root ∧ shaped root = true ∧ wellTimed root = true ∧ unmixed root = true ∧
    ∃ doc seg segdoc, validateDoc 0 root = .ok doc ∧ segment (exEnv 0 7000000) doc = .ok seg ∧
      validateDoc 0 seg = .ok segdoc ∧ shownAt doc 1000000 = [] ∧ shownAt segdoc 1000000 = [[.text "a".toList]] :=
  ⟨.elem { kind := .body } [.elem { kind := .div } [
      .elem { kind := .p, beg := some ⟨"1.0005s".toList, 1000500⟩, fin := sec 9 } [.text "a".toList]]],
    sane_of rfl (by decide) (by decide), by decide, by decide, by decide, _, _, _, validateDoc_eq _ _, rfl, validateDoc_eq _ _,
    by decide +kernel, by decide +kernel⟩

/-! ### C25 -/

/-- C25.  In a segment every div contains a div or a p, every p and span contains a line break, a span
or text other than white space, and only leaves (p and span without spans) have times, except the
body of a segment without content, which has the window's times. -/
theorem C25_no_empty_containers (v : Env) (root : Node Att) (hs : Sane root) (hsh : shaped root = true) (avail : Int)
    (doc : Node Lab) (hdoc : validateDoc avail root = .ok doc) (seg : Node Att) (hseg : segment v doc = .ok seg) :
    ∀ anc a kids, Reach seg anc (.elem a kids) →
      (a.kind = .div → ∃ b bs, Node.elem b bs ∈ kids ∧ (b.kind = .div ∨ b.kind = .p)) ∧
      (a.kind = .p ∨ a.kind = .span →
        Node.br ∈ kids ∨ (∃ s, Node.text s ∈ kids ∧ ∃ c ∈ s, isWs c = false) ∨ ∃ b bs, Node.elem b bs ∈ kids ∧ b.kind = .span) ∧
      ((a.kind = .body ∨ a.kind = .div ∨ ∃ b bs, Node.elem b bs ∈ kids ∧ b.kind = .span) →
        (a.beg = none ∧ a.fin = none ∧ a.dur = none) ∨ (anc = [] ∧ kids = [])) := by
  rw [validateDoc_eq] at hdoc
  injection hdoc with hdoc
  subst hdoc
  have herase : erase (times avail 0 none root) = root := by
    obtain ⟨v', hv', he, _⟩ := C14_computed_times_partial avail root hs
    rw [validateDoc_eq] at hv'
    injection hv' with hv'
    rw [hv']; exact he
  obtain ⟨a0, ks0, hroot, hbody⟩ := hs.body
  have hx : ∃ x kids, times avail 0 none root = .elem x kids ∧ x.att.kind = .body := by
    rw [hroot]; exact ⟨_, _, rfl, hbody⟩
  obtain ⟨x, kids0, hx, hxk⟩ := hx
  rw [hx] at hseg herase
  obtain ⟨_, ⟨a, rfl, hk⟩ | h2⟩ := segment_tidy hxk (by rw [herase]; exact hsh) hseg
  · intro anc b kids hr
    rcases reach_cons hr with ⟨h1, h2⟩ | ⟨k, hk, _⟩
    · injection h2 with h2 h3
      subst h2; subst h3
      refine ⟨by rw [hk]; simp, by rw [hk]; simp, fun _ => .inr ⟨h1, rfl⟩⟩
    · simp at hk
  · intro anc b kids hr
    have hmemL : ∀ {ks : List (Node Att)}, tidyL ks = true → ∀ k ∈ ks, tidy k = true := by
      intro ks
      induction ks with
      | nil => intro _ k hk; simp at hk
      | cons y ys ih =>
        intro h k hk
        simp only [tidyL, Bool.and_eq_true] at h
        rcases List.mem_cons.mp hk with rfl | hk
        · exact h.1
        · exact ih h.2 k hk
    have ht := reach_all (P := fun n => tidy n = true) (fun y ks k hy hk => by
      simp only [tidy, Bool.and_eq_true] at hy
      exact hmemL hy.2 k hk) h2 hr
    simp only [tidy, Bool.and_eq_true] at ht
    obtain ⟨⟨hc, hn⟩, _⟩ := ht
    refine ⟨?_, ?_, ?_⟩
    · intro hd
      rw [hd] at hc
      simp only [hasContent] at hc
      obtain ⟨k, hk, hh⟩ := List.any_eq_true.mp hc
      cases k with
      | text s => simp at hh
      | br => simp at hh
      | elem y ys => exact ⟨y, ys, hk, by simpa using hh⟩
    · intro hps
      have hc : (Visible (items kids) || kids.any (isSpan Att.kind)) = true := by
        rcases hps with hps | hps <;> rw [hps] at hc <;> exact hc
      rw [Bool.or_eq_true] at hc
      rcases hc with hc | hc
      · obtain ⟨i, hi, hh⟩ := List.any_eq_true.mp hc
        have hitems : ∀ (ks : List (Node Att)) (i : Item), i ∈ items ks →
            (i = .br ∧ Node.br ∈ ks) ∨ ∃ s, i = .text s ∧ Node.text s ∈ ks := by
          intro ks
          induction ks with
          | nil => intro i hi; simp [items] at hi
          | cons k ks ih =>
            intro i hi
            cases k with
            | text s =>
              simp only [items, List.mem_cons] at hi
              rcases hi with rfl | hi
              · exact .inr ⟨s, rfl, List.mem_cons_self⟩
              · rcases ih i hi with ⟨h1, h2⟩ | ⟨s, h1, h2⟩
                · exact .inl ⟨h1, List.mem_cons_of_mem _ h2⟩
                · exact .inr ⟨s, h1, List.mem_cons_of_mem _ h2⟩
            | br =>
              simp only [items, List.mem_cons] at hi
              rcases hi with rfl | hi
              · exact .inl ⟨rfl, List.mem_cons_self⟩
              · rcases ih i hi with ⟨h1, h2⟩ | ⟨s, h1, h2⟩
                · exact .inl ⟨h1, List.mem_cons_of_mem _ h2⟩
                · exact .inr ⟨s, h1, List.mem_cons_of_mem _ h2⟩
            | elem y ys =>
              simp only [items] at hi
              rcases ih i hi with ⟨h1, h2⟩ | ⟨s, h1, h2⟩
              · exact .inl ⟨h1, List.mem_cons_of_mem _ h2⟩
              · exact .inr ⟨s, h1, List.mem_cons_of_mem _ h2⟩
        rcases hitems kids i hi with ⟨_, h⟩ | ⟨s, rfl, h⟩
        · exact .inl h
        · refine .inr (.inl ⟨s, h, ?_⟩)
          simp only [Bool.not_eq_true'] at hh
          rw [← Bool.not_eq_true, List.all_eq_true] at hh
          simp only [Classical.not_forall] at hh
          obtain ⟨c, hc1, hc2⟩ := hh
          exact ⟨c, hc1, by simpa using hc2⟩
      · obtain ⟨k, hk, hh⟩ := List.any_eq_true.mp hc
        cases k with
        | text s => simp [isSpan] at hh
        | br => simp [isSpan] at hh
        | elem y ys => exact .inr (.inr ⟨y, ys, hk, by simpa [isSpan] using hh⟩)
    · intro hcont
      left
      rw [Bool.or_eq_true] at hn
      rcases hn with hn | hn
      · simp only [Leaf, Bool.and_eq_true, Bool.or_eq_true, decide_eq_true_eq, Bool.not_eq_true'] at hn
        rcases hcont with h | h | ⟨y, ys, hy, hyk⟩
        · rw [h] at hn; simp at hn
        · rw [h] at hn; simp at hn
        · have := List.any_eq_false.mp hn.2 _ hy
          simp [isSpan, hyk] at this
      · simpa using hn

example : Sane segDoc ∧ shaped segDoc = true ∧
    ((validateDoc 0 segDoc).toOption.bind (fun d => (segment (exEnv 6500000 7500000) d).toOption)).isSome = true :=
  ⟨segDoc_sane, by decide, by decide +kernel⟩

/-! ### C26 -/

theorem digs_dot {m n : Nat} {x y : List Char} (h : Time.digs m ++ '.' :: x = Time.digs n ++ '.' :: y) : m = n ∧ x = y := by
  obtain ⟨hm1, hm2, _⟩ := Time.digs_props m
  obtain ⟨hn1, hn2, _⟩ := Time.digs_props n
  obtain ⟨e1, e2⟩ := Time.takeWhile_all (p := Time.isDig) (b := x) (c := '.') hm2 (by decide)
  obtain ⟨f1, f2⟩ := Time.takeWhile_all (p := Time.isDig) (b := y) (c := '.') hn2 (by decide)
  rw [h] at e1 e2
  rw [e1] at f1
  rw [e2] at f2
  injection f2 with _ f2
  exact ⟨by rw [← hm1, f1, hn1], f2⟩

/-- C26.  Prefixed identifiers are equal only for equal sequence numbers and equal identifiers. -/
theorem C26_prefix_injective (m n : Nat) (x y : List Char) : seqPrefix m x = seqPrefix n y ↔ m = n ∧ x = y := by
  constructor
  · intro h
    unfold seqPrefix at h
    rw [List.append_assoc, List.append_assoc] at h
    exact digs_dot (List.append_cancel_left h)
  · rintro ⟨rfl, rfl⟩; rfl

mutual
theorem seg_ids {v : Env} {n : Nat} (hp : v.pre = some n) : ∀ (t : Node Lab) (o : Option (Node Att)), segNode v t = .ok o →
    List.Sublist (idsOfL Att.id o.toList) ((idsOf (fun x : Lab => x.att.id) t).map (seqPrefix n))
  | .text s, o, h => by
    simp only [segNode, Except.ok.injEq] at h
    subst h
    exact .slnil
  | .br, o, h => by
    simp only [segNode, Except.ok.injEq] at h
    subst h
    exact .slnil
  | .elem x kids, o, h => by
    rcases segNode_elem h with ⟨hin, rfl⟩ | ⟨hin, a, ks, ha, hks, ⟨_, rfl⟩ | ⟨he, a', ha', rfl⟩⟩
    · exact List.nil_sublist _
    · exact List.nil_sublist _
    · have ih := segL_ids hp kids ks hks
      simp only [Option.toList, idsOfL, idsOf, List.append_nil, List.map_append]
      refine List.Sublist.append ?_ ih
      rw [(leafTiming_kind ha').2, copyAtt_id ha]
      unfold copyId
      rw [hp]
      cases x.att.kind <;> cases x.att.id <;> simp
theorem segL_ids {v : Env} {n : Nat} (hp : v.pre = some n) : ∀ (ts : List (Node Lab)) (out : List (Node Att)),
    segList v ts = .ok out →
    List.Sublist (idsOfL Att.id out) ((idsOfL (fun x : Lab => x.att.id) ts).map (seqPrefix n))
  | [], out, h => by
    simp only [segList, Except.ok.injEq] at h
    subst h
    exact .slnil
  | k :: ks, out, h => by
    obtain ⟨o, rest, ho, hr, rfl⟩ := segList_cons h
    have h1 := seg_ids hp k o ho
    have h2 := segL_ids hp ks rest hr
    have : idsOfL Att.id (o.toList ++ rest) = idsOfL Att.id o.toList ++ idsOfL Att.id rest := by
      cases o <;> simp [idsOfL]
    rw [this, idsOfL, List.map_append]
    exact h1.append h2
end

/-- C26, for whole segments: the identifiers of a segment with prefixing are prefixed identifiers of
the document, in document order; so if the document's are distinct, so are the segment's, and segments
of documents with different sequence numbers have none in common. -/
theorem C26_segment_identifiers (v w : Env) (m n : Nat) (hv : v.pre = some m) (hw : w.pre = some n)
    (doc doc' : Node Lab) (seg seg' : Node Att) (h : segment v doc = .ok seg) (h' : segment w doc' = .ok seg') :
    (idsOf Att.id seg).Sublist ((idsOf (fun x : Lab => x.att.id) doc).map (seqPrefix m)) ∧
    ((idsOf (fun x : Lab => x.att.id) doc).Nodup → (idsOf Att.id seg).Nodup) ∧
    (m ≠ n → ∀ i ∈ idsOf Att.id seg, i ∉ idsOf Att.id seg') := by
  have hseg : ∀ (v : Env) (m : Nat) (doc : Node Lab) (seg : Node Att), v.pre = some m → segment v doc = .ok seg →
      (idsOf Att.id seg).Sublist ((idsOf (fun x : Lab => x.att.id) doc).map (seqPrefix m)) := by
    intro v m doc seg hv h
    unfold segment at h
    obtain ⟨o, ho, h⟩ := bind_ok h
    have hs := seg_ids hv doc o ho
    split at h
    · obtain ⟨b, hb, h⟩ := bind_ok h
      obtain ⟨e, he, h⟩ := bind_ok h
      simp only [pure, Except.pure, Except.ok.injEq] at h
      rw [← h]
      simpa [idsOf, idsOfL] using hs
    · simp only [pure, Except.pure, Except.ok.injEq] at h
      rw [← h]
      simpa [idsOfL] using hs
    · simp [throw, throwThe, MonadExceptOf.throw] at h
  refine ⟨hseg v m doc seg hv h, ?_, ?_⟩
  · intro hn
    refine (hseg v m doc seg hv h).nodup ?_
    refine List.Pairwise.map _ ?_ hn
    intro a b hne hab
    exact hne ((C26_prefix_injective m m a b).mp hab).2
  · intro hmn i hi hi'
    have h1 := (hseg v m doc seg hv h).subset hi
    have h2 := (hseg w n doc' seg' hw h').subset hi'
    rw [List.mem_map] at h1 h2
    obtain ⟨a, _, ha⟩ := h1
    obtain ⟨b, _, hb⟩ := h2
    rw [← hb] at ha
    exact hmn ((C26_prefix_injective m n a b).mp ha).1

example : seqPrefix 12 "p1".toList = "SEQ12.p1".toList ∧ seqPrefix 1 "2.p1".toList = "SEQ1.2.p1".toList ∧
    ((validateDoc 0 segDoc).toOption.bind (fun d => (segment (exEnv 3000000 5500000) d).toOption.map (idsOf Att.id))) =
      some ["SEQ7.p1".toList, "SEQ7.p2".toList] := ⟨by decide, by decide, by decide +kernel⟩

end Verif.Doc
