import Verif.Doc.SegmentProps
import Verif.Doc.LinesSpec

/-! Helper lemmas for the properties about lines. -/
namespace Verif.Doc

theorem readAtL_append (t : Int) (a b : List (Node Lab)) : readAtL t (a ++ b) = readAtL t a ++ readAtL t b := by
  induction a with
  | nil => rfl
  | cons k ks ih => simp [readAtL, ih]

theorem linesAtL_append (t : Int) (a b : List (Node Lab)) : linesAtL t (a ++ b) = linesAtL t a ++ linesAtL t b := by
  induction a with
  | nil => rfl
  | cons k ks ih => simp [linesAtL, ih]

theorem timesL_append (avail sync : Int) (bound : Option Int) (a b : List (Node Att)) :
    timesL avail sync bound (a ++ b) = timesL avail sync bound a ++ timesL avail sync bound b := by
  simp [timesL_eq]

theorem readAtL_noElem {t : Int} {ks : List (Node Lab)} (h : ∀ x kk, Node.elem x kk ∉ ks) : readAtL t ks = items ks := by
  induction ks with
  | nil => rfl
  | cons k ks ih =>
    have ih := ih (fun x kk hm => h x kk (List.mem_cons_of_mem _ hm))
    cases k with
    | text s => simp [readAtL, readAt, items, ih]
    | br => simp [readAtL, readAt, items, ih]
    | elem x kk => exact absurd List.mem_cons_self (h x kk)

theorem linesAtL_noElem {t : Int} {ks : List (Node Lab)} (h : ∀ x kk, Node.elem x kk ∉ ks) : linesAtL t ks = [] := by
  induction ks with
  | nil => rfl
  | cons k ks ih =>
    have ih := ih (fun x kk hm => h x kk (List.mem_cons_of_mem _ hm))
    cases k with
    | text s => simp [linesAtL, linesAt, ih]
    | br => simp [linesAtL, linesAt, ih]
    | elem x kk => exact absurd List.mem_cons_self (h x kk)

theorem words_append (a b : List Item) : Words (a ++ b) = (Words a || Words b) := by simp [Words]

/-- Leaving out blank pieces does not change whether there is something to read. -/
theorem words_keep (exact : Bool) (l : List Item) : Words (l.filter (keep exact)) = Words l := by
  induction l with
  | nil => rfl
  | cons i is ih =>
    by_cases hk : keep exact i = true
    · rw [List.filter_cons_of_pos hk]
      simp only [Words, List.any_cons] at ih ⊢
      rw [ih]
    · rw [List.filter_cons_of_neg hk, ih]
      cases i with
      | br => simp [keep] at hk
      | text s =>
        simp only [keep, Bool.or_eq_true, not_or, Bool.not_eq_true, Bool.not_eq_false'] at hk
        simp [Words, hk.2]

theorem keep_true (l : List Item) : l.filter (keep true) = l := by
  rw [List.filter_eq_self]
  intro i _
  cases i <;> rfl

theorem words_visible {l : List Item} (h : Visible l = false) : Words l = false := by
  unfold Words
  unfold Visible at h
  rw [List.any_eq_false] at h ⊢
  intro i hi
  have := h i hi
  cases i <;> simp_all

/-- What is kept of nothing is not to be read. -/
theorem words_of_kept {exact : Bool} {l : List Item} (h : l.filter (keep exact) = []) : Words l = false := by
  rw [← words_keep exact l, h]; rfl

theorem visible_of_kept {exact : Bool} {l : List Item} (h : l.filter (keep exact) = []) : Visible l = false := by
  unfold Visible
  rw [List.any_eq_false]
  intro i hi
  have := List.filter_eq_nil_iff.mp h i hi
  cases i <;> simp_all [keep]

/-- A property of lists that the parts have the whole has: if the whole reading has some item that the
own items do not have, some element inside is active. -/
theorem active_kid {t : Int} {Q : Item → Bool} : ∀ {ks : List (Node Lab)}, (items ks).filter Q = [] →
    (readAtL t ks).filter Q ≠ [] → ∃ y ys, Node.elem y ys ∈ ks ∧ y.comp.at t = true := by
  intro ks
  induction ks with
  | nil => intro _ h; exact absurd rfl h
  | cons k ks ih =>
    intro hi hr
    rw [readAtL, List.filter_append] at hr
    by_cases hk : (readAt t k).filter Q = []
    · rw [hk, List.nil_append] at hr
      have hi' : (items ks).filter Q = [] := by
        cases k with
        | text s => rw [items] at hi; rw [List.filter_eq_nil_iff] at hi ⊢; exact fun i h => hi i (List.mem_cons_of_mem _ h)
        | br => rw [items] at hi; rw [List.filter_eq_nil_iff] at hi ⊢; exact fun i h => hi i (List.mem_cons_of_mem _ h)
        | elem x kk => exact hi
      obtain ⟨y, ys, hm, hat⟩ := ih hi' hr
      exact ⟨y, ys, List.mem_cons_of_mem _ hm, hat⟩
    · cases k with
      | text s =>
        exfalso
        apply hk
        rw [readAt, List.filter_eq_nil_iff]
        rw [items, List.filter_eq_nil_iff] at hi
        intro i h
        rw [List.mem_singleton] at h
        subst h
        exact hi _ List.mem_cons_self
      | br =>
        exfalso
        apply hk
        rw [readAt, List.filter_eq_nil_iff]
        rw [items, List.filter_eq_nil_iff] at hi
        intro i h
        rw [List.mem_singleton] at h
        subst h
        exact hi _ List.mem_cons_self
      | elem x kk =>
        refine ⟨x, kk, List.mem_cons_self, ?_⟩
        by_contra hc
        rw [readAt, if_neg hc] at hk
        exact hk rfl

/-- Text other than white space. -/
def wordy : Item → Bool
  | .br => false
  | .text s => !(s.all isWs)

theorem words_filter (l : List Item) : Words l = false ↔ l.filter wordy = [] := by
  unfold Words
  rw [List.any_eq_false, List.filter_eq_nil_iff]
  exact Iff.rfl

/-! ### A copy, validated as part of a segment -/

/-- The smallest begin is at most every begin. -/
theorem minBegin_le : ∀ (ks : List Comp) (k : Comp), ∀ c ∈ k :: ks, minBegin k ks ≤ c.b := by
  have hle : ∀ (ks : List Comp) (m : Int), ks.foldl (fun m x => min m x.b) m ≤ m ∧
      ∀ c ∈ ks, ks.foldl (fun m x => min m x.b) m ≤ c.b := by
    intro ks
    induction ks with
    | nil => intro m; exact ⟨Int.le_refl _, by simp⟩
    | cons k ks ih =>
      intro m
      obtain ⟨h1, h2⟩ := ih (min m k.b)
      simp only [List.foldl_cons]
      refine ⟨by omega, ?_⟩
      intro c hc
      rcases List.mem_cons.mp hc with rfl | hc
      · omega
      · exact h2 c hc
  intro ks k c hc
  obtain ⟨h1, h2⟩ := hle ks k.b
  unfold minBegin
  rcases List.mem_cons.mp hc with rfl | hc
  · exact h1
  · exact h2 c hc

/-- The greatest end is at least every end. -/
theorem maxEnd_ge : ∀ (ks : List Comp) (m : Int), maxEnd ks = some m → ∀ c ∈ ks, ∃ e, c.e = some e ∧ e ≤ m := by
  intro ks
  induction ks with
  | nil => intro m h; simp [maxEnd] at h
  | cons k ks ih =>
    intro m h c hc
    cases ks with
    | nil =>
      rw [List.mem_singleton] at hc
      subst hc
      exact ⟨m, h, Int.le_refl _⟩
    | cons k2 ks2 =>
      rw [maxEnd] at h
      · cases hk : k.e with
        | none => rw [hk] at h; simp at h
        | some a =>
          cases hm : maxEnd (k2 :: ks2) with
          | none => rw [hk, hm] at h; simp at h
          | some b =>
            rw [hk, hm] at h
            simp only [Option.some.injEq] at h
            rcases List.mem_cons.mp hc with rfl | hc
            · exact ⟨a, hk, by omega⟩
            · obtain ⟨e, he, hle⟩ := ih b hm c hc
              exact ⟨e, he, by omega⟩
      · simp

/-- A container without times of its own is active when one of its children is. -/
theorem hull_at {a : Att} (hbeg : a.beg = none) (hfin : a.fin = none) (hdur : a.dur = none) {ks : List Comp} {c : Comp}
    (hc : c ∈ ks) (h0 : 0 ≤ c.b) {t : Int} (ht : c.at t = true) : (compOf 0 0 none a ks).at t = true := by
  have hbad : badly a = false := by unfold badly; rw [hbeg]
  have hown : ownEnd 0 0 none a = none := by
    unfold ownEnd preEnd baseEnd
    rw [hfin, hdur]
    cases a.kind <;> rfl
  unfold compOf
  rw [hown, hbeg, hbad]
  simp only [eff, Option.getD_none, Int.add_zero, ne_eq, not_true_eq_false, if_false, Option.isNone_none, if_true,
    Bool.false_eq_true, and_false]
  unfold Comp.at at ht ⊢
  simp only [Bool.and_eq_true, decide_eq_true_eq] at ht ⊢
  cases ks with
  | nil => simp at hc
  | cons k ks =>
    refine ⟨?_, ?_⟩
    · have := minBegin_le ks k c hc
      unfold postBegin
      simp only
      split <;> omega
    · simp only
      cases hm : maxEnd (k :: ks) with
      | none => rfl
      | some m =>
        obtain ⟨e, he, hle⟩ := maxEnd_ge _ m hm c hc
        rw [he] at ht
        simp only [decide_eq_true_eq] at ht ⊢
        omega

/-- The text of a written time, and that on a clock time base it is below a hundred hours. -/
theorem stamp_text {v : Env} (hb : v.base ≠ .smpte) {t : Int} {tv : TV} (h : stamp v (some t) = .ok tv) :
    tv.text = Time.writeFull t ∧ (v.base = .clock → t < 100 * 3600000000) := by
  unfold stamp at h
  cases hbase : v.base with
  | smpte => exact absurd hbase hb
  | media =>
    rw [hbase] at h
    simp only [Except.ok.injEq] at h
    rw [← h]
    exact ⟨rfl, by simp⟩
  | clock =>
    rw [hbase] at h
    simp only at h
    cases hw : Time.writeLimited t with
    | none => rw [hw] at h; simp at h
    | some text =>
      rw [hw] at h
      simp only [Except.ok.injEq] at h
      rw [← h]
      unfold Time.writeLimited Time.members at hw
      by_cases h99 : t < 100 * 3600000000
      · rw [if_neg (by simp only; omega)] at hw
        injection hw with hw
        exact ⟨hw.symm, fun _ => h99⟩
      · rw [if_pos (by simp only; omega)] at hw
        simp at hw

/-- What is needed of the computed times of a leaf. -/
structure LeafFact (c : Comp) : Prop where
  nonneg : 0 ≤ c.b
  pos : ∀ m, c.e = some m → 0 < m
  msb : c.b % 1000 = 0
  mse : ∀ m, c.e = some m → m % 1000 = 0

/-- The window is in whole milliseconds and ends before a hundred hours where the time base does not
see to it. -/
structure WinFact (v : Env) : Prop where
  rd : v.rd.Accurate
  base : v.base ≠ .smpte
  ms : ∀ t, v.win.b = some t ∨ v.win.e = some t → t % 1000 = 0
  short : v.base = .clock ∨ ∃ we, v.win.e = some we ∧ we < 100 * 3600000000

/-- The times of the copy of a leaf: cut to the window. -/
theorem leaf_copy {v : Env} (hv : WinFact v) {c : Comp} (hc : LeafFact c) (hin : inSeg v.win c = true) {a a' : Att}
    {ks : List (Node Att)} (hk : a.kind = .p ∨ a.kind = .span) (hns : ks.any (isSpan Att.kind) = false)
    (h : leafTiming v c a ks = .ok a') (t : Int) :
    (compOf 0 0 none a' []).at t = (v.win.at t && c.at t) ∧ 0 ≤ (compOf 0 0 none a' []).b ∧
      ((compOf 0 0 none a' []).at t = true → badly a' = false) := by
  rw [inSeg_eq] at hin
  unfold leafTiming at h
  rw [isTimedLeaf_eq hk, hns] at h
  simp only [Bool.not_false, if_true] at h
  obtain ⟨b, hb, h⟩ := bind_ok h
  obtain ⟨e, he, h⟩ := bind_ok h
  simp only [pure, Except.pure, Except.ok.injEq] at h
  have hkind : a'.kind = a.kind := by rw [← h]
  have hsb : a'.beg = some b := by rw [← h]
  have hse : a'.fin = some e := by rw [← h]
  rw [trimBegin_eq] at hb
  rw [trimEnd_eq] at he
  have hcb : 0 ≤ cutBegin v.win c := by
    have := hc.nonneg
    unfold cutBegin
    cases hwb : v.win.b with
    | none => exact this
    | some wb => simp only; omega
  have hce : ∀ te, cutEnd v.win c = some te → 0 < te ∧ te % 1000 = 0 := by
    intro te hte
    unfold cutEnd at hte
    unfold Overlaps at hin
    cases hwe : v.win.e with
    | none => rw [hwe] at hte; exact ⟨hc.pos te hte, hc.mse te hte⟩
    | some we =>
      have hwem := hv.ms we (.inr hwe)
      have h0 := hc.nonneg
      rw [hwe] at hte hin
      simp only [Bool.and_eq_true, decide_eq_true_eq] at hin
      cases hce : c.e with
      | none => rw [hce] at hte; simp at hte; omega
      | some m =>
        have := hc.pos m hce
        have := hc.mse m hce
        rw [hce] at hte
        simp at hte
        omega
  obtain ⟨tb, htb, hb1, _⟩ := stamp_spec hv.rd hv.base hb (by intro t ht; injection ht with ht; rw [← ht]; exact hcb)
  obtain ⟨te, hte, he1, _⟩ := stamp_spec hv.rd hv.base he (by intro t ht; have := (hce t ht).1; omega)
  injection htb with htb
  obtain ⟨hpos, hms⟩ := hce te hte
  have hmsb : Time.toMs tb = cutBegin v.win c := by
    rw [← htb]
    have := hc.msb
    unfold Time.toMs cutBegin
    cases hwb : v.win.b with
    | none => simp only; omega
    | some wb => have := hv.ms wb (.inl hwb); simp only; omega
  have hmse : Time.toMs te = te := by unfold Time.toMs; omega
  rw [hmsb] at hb1
  rw [hmse] at he1
  have hcomp : compOf 0 0 none a' [] = ⟨cutBegin v.win c, some te⟩ := by
    have hown : ownEnd 0 0 none a' = some te := by
      unfold ownEnd preEnd baseEnd
      rw [hse]
      have : eff (some e) = some te := by simp only [eff, he1]; rw [if_neg (by omega)]
      rw [this]
      rw [hkind]
      rcases hk with h6 | h6 <;> rw [h6] <;> simp
    have hnb : ¬ (a'.kind = .body) := by rw [hkind]; rcases hk with h6 | h6 <;> rw [h6] <;> simp
    unfold compOf
    rw [hown, hsb]
    simp only [postBegin, ite_self, hnb, false_and, if_false]
    simp only [eff, hb1]
    by_cases hz : cutBegin v.win c = 0
    · simp [hz]
    · simp [hz]
  rw [hcomp]
  refine ⟨?_, hcb, ?_⟩
  · unfold cutEnd at hte
    unfold Win.at Comp.at cutBegin
    cases hwb : v.win.b <;> cases hwe : v.win.e <;> cases hce : c.e <;> rw [hwe, hce] at hte <;>
      simp at hte <;> simp only [Bool.true_and, Bool.and_true] <;>
      rw [Bool.eq_iff_iff] <;> simp only [Bool.and_eq_true, decide_eq_true_eq] <;> omega
  · intro hat
    unfold Comp.at at hat
    simp only [Bool.and_eq_true, decide_eq_true_eq] at hat
    rw [hte] at he
    obtain ⟨tx1, _⟩ := stamp_text hv.base hb
    obtain ⟨tx2, hcl⟩ := stamp_text hv.base he
    have h100 : te < 100 * 3600000000 := by
      rcases hv.short with hclk | ⟨we, hwe, hlt⟩
      · exact hcl hclk
      · unfold cutEnd at hte
        rw [hwe] at hte
        cases hce : c.e with
        | none => rw [hce] at hte; simp at hte; omega
        | some m => rw [hce] at hte; simp at hte; omega
    unfold badly
    rw [hsb, hse]
    simp only
    rw [tx1, tx2]
    simp only [Bool.not_eq_false', decide_eq_true_eq]
    rw [(Time.C22_text_order_is_time_order _ te hcb (by omega) (by omega) h100).1]
    have hbm : cutBegin v.win c % 1000 = 0 := by
      have h1 : Time.toMs tb % 1000 = 0 := by unfold Time.toMs; omega
      omega
    omega

/-- Leaves have the times they need. -/
def LeafOk (n : Node Lab) : Prop :=
  ∀ anc x kids, Reach n anc (.elem x kids) → Leaf (fun x : Lab => x.att.kind) x kids = true → LeafFact x.comp

theorem LeafOk.kid {x : Lab} {kids : List (Node Lab)} (h : LeafOk (.elem x kids)) {k : Node Lab} (hk : k ∈ kids) : LeafOk k :=
  fun anc y ks hr hl => h (x :: anc) y ks (by
    have := reach_trans (x := x) (root := .elem x kids) (.here) hk hr
    simpa using this) hl

theorem Covers.at {c d : Comp} (h : Covers c d) {t : Int} (ht : d.at t = true) : c.at t = true := by
  obtain ⟨h1, h2⟩ := h
  unfold Comp.at at *
  simp only [Bool.and_eq_true, decide_eq_true_eq] at ht ⊢
  refine ⟨by omega, ?_⟩
  cases hc : c.e with
  | none => rfl
  | some m =>
    obtain ⟨e, he, hle⟩ := h2 m hc
    rw [he] at ht
    simp only [decide_eq_true_eq] at ht ⊢
    omega

/-- Active at an instant of the window means inside the segment. -/
theorem at_inSeg {w : Win} {c : Comp} {t : Int} (hw : w.at t = true) (hc : c.at t = true) : inSeg w c = true := by
  rw [inSeg_eq]
  unfold Overlaps
  unfold Win.at at hw
  unfold Comp.at at hc
  cases hwb : w.b <;> cases hwe : w.e <;> cases hce : c.e <;> simp_all <;> omega

/-- A leaf of a segment, validated. -/
theorem times_noElem {a : Att} {ks : List (Node Att)} (h : ∀ x kk, Node.elem x kk ∉ ks) :
    ∃ ks', times 0 0 none (.elem a ks) = .elem ⟨a, compOf 0 0 none a []⟩ ks' ∧ items ks' = items ks ∧
      ∀ x kk, Node.elem x kk ∉ ks' := by
  have hne : ∀ sync bound, ∀ x kk, Node.elem x kk ∉ timesL 0 sync bound ks := by
    intro sync bound y ys hy
    rw [timesL_eq, List.mem_map] at hy
    obtain ⟨k, hk, hky⟩ := hy
    cases k with
    | text s => simp [times] at hky
    | br => simp [times] at hky
    | elem b bs => exact h b bs hk
  refine ⟨_, by simp only [times]; rw [timedKids_noElem (hne _ _)], items_timesL _ _ _ _, hne _ _⟩

/-- A container of a segment, validated. -/
theorem times_untimed {a : Att} (hbeg : a.beg = none) (hfin : a.fin = none) (hdur : a.dur = none) (ks : List (Node Att)) :
    times 0 0 none (.elem a ks) = .elem ⟨a, compOf 0 0 none a (timedKids (timesL 0 0 none ks))⟩ (timesL 0 0 none ks) := by
  have e1 : eff a.beg = none := by rw [hbeg]; rfl
  have e2 : ownEnd 0 0 none a = none := by
    unfold ownEnd preEnd baseEnd
    rw [hfin, hdur]
    cases a.kind <;> rfl
  simp only [times]
  rw [e1, e2]
  simp only [below, Option.getD_none, Int.add_zero]

/-- The copy of a container has no times. -/
theorem leafTiming_untimed {v : Env} {c : Comp} {a a' : Att} {ks : List (Node Att)} (h : leafTiming v c a ks = .ok a')
    (hl : isTimedLeaf a.kind ks = false) : a'.beg = none ∧ a'.fin = none ∧ a'.dur = none := by
  unfold leafTiming at h
  rw [if_neg (by simp [hl])] at h
  simp only [Except.ok.injEq] at h
  rw [← h]
  exact ⟨rfl, rfl, rfl⟩

theorem fits_span_elem {x : Lab} {kids : List (Node Lab)} (h : fits .span (erase (.elem x kids)) = true) : x.att.kind = .span := by
  simpa [erase, fits] using h

theorem mem_eraseL {k : Node Lab} {ks : List (Node Lab)} (h : k ∈ ks) : erase k ∈ eraseL ks := by
  induction ks with
  | nil => simp at h
  | cons y ys ih =>
    rw [eraseL]
    rcases List.mem_cons.mp h with rfl | h
    · exact List.mem_cons_self
    · exact List.mem_cons_of_mem _ (ih h)

theorem segList_noSpan {v : Env} : ∀ {kids : List (Node Lab)} {ks : List (Node Att)}, segList v kids = .ok ks →
    (∀ x kk, Node.elem x kk ∉ kids) → ks.any (isSpan Att.kind) = false := by
  intro kids
  induction kids with
  | nil => intro ks h _; simp only [segList, Except.ok.injEq] at h; rw [← h]; rfl
  | cons k kids ih =>
    intro ks h hne
    obtain ⟨o, rest, ho, hr, rfl⟩ := segList_cons h
    have ih := ih hr (fun x kk hm => hne x kk (List.mem_cons_of_mem _ hm))
    rw [List.any_append, ih, Bool.or_false]
    cases k with
    | text s => simp only [segNode, Except.ok.injEq] at ho; subst ho; rfl
    | br => simp only [segNode, Except.ok.injEq] at ho; subst ho; rfl
    | elem x kk => exact absurd List.mem_cons_self (hne x kk)

mutual
/-- A span, its copy validated as part of a segment: inside the window it shows the same, outside
nothing; and when it is active it counts for the times of what contains it. -/
theorem seg_read {v : Env} (hv : WinFact v) (exact : Bool) (t : Int) : ∀ (n : Node Lab) (o : Option (Node Att)),
    segNode v n = .ok o → fits .span (erase n) = true → shaped (erase n) = true → lined exact (erase n) = true →
    Cov n → LeafOk n →
    (readAtL t (timesL 0 0 none o.toList)).filter (keep exact) =
      (if v.win.at t then readAt t n else items [n]).filter (keep exact) ∧
    ∀ y ys, Node.elem y ys ∈ timesL 0 0 none o.toList → y.comp.at t = true → badly y.att = false ∧ 0 ≤ y.comp.b
  | .text s, o, h, _, _, _, _, _ => by
    simp only [segNode, Except.ok.injEq] at h
    subst h
    refine ⟨?_, by simp [timesL, times]⟩
    cases v.win.at t <;> simp [timesL, times, readAtL, readAt, items]
  | .br, o, h, _, _, _, _, _ => by
    simp only [segNode, Except.ok.injEq] at h
    subst h
    refine ⟨?_, by simp [timesL, times]⟩
    cases v.win.at t <;> simp [timesL, times, readAtL, readAt, items]
  | .elem x kids, o, h, hf, hs, hl, hcov, hlf => by
    have hk := fits_span_elem hf
    have hk' : x.att.kind = .p ∨ x.att.kind = .span := .inr hk
    simp only [erase, shaped, lined, Bool.and_eq_true] at hs hl
    rw [hk] at hl
    simp only at hl
    rw [isSpan_eraseL, items_eraseL, Bool.or_eq_true, Bool.and_eq_true, List.isEmpty_iff, Bool.not_eq_true'] at hl
    rcases segNode_elem h with ⟨hin, rfl⟩ | ⟨hin, a, ks, ha, hks, hcase⟩
    · refine ⟨?_, by simp [timesL]⟩
      simp only [Option.toList, timesL, readAtL, items]
      by_cases hw : v.win.at t = true
      · rw [if_pos hw, readAt, if_neg]
        intro hat
        rw [at_inSeg hw hat] at hin
        simp at hin
      · rw [if_neg hw]
    · have ih := segL_read hv exact t kids ks hks (by rw [hk] at hs; exact hs.1) hs.2 hl.2
        (fun k hkm => hcov.kid hkm) (fun k hkm => hlf.kid hkm)
      have hfit := segList_fits hks hs.1
      have hit := segList_items hks
      have htx : textsOk (items ks) = true := by
        rw [hit, ← items_eraseL]; exact textsOk_shaped hs.2
      rw [isEmpty_leafy hk' htx] at hcase
      have hakind := copyAtt_kind ha
      rcases hcase with ⟨he, rfl⟩ | ⟨he, a', ha', rfl⟩
      · -- discarded as empty
        refine ⟨?_, by simp [timesL]⟩
        simp only [Bool.and_eq_true, Bool.not_eq_true'] at he
        have hnone : (items kids).filter (keep exact) = [] := by
          rcases hl.1 with h1 | ⟨_, h1⟩
          · exact h1
          · rw [hit, h1] at he; simp at he
        have hne := noElem_of_noSpan hk' hfit he.2
        have hne' : ∀ y ys, Node.elem y ys ∉ timesL 0 0 none ks := by
          intro y ys hy
          rw [timesL_eq, List.mem_map] at hy
          obtain ⟨k, hkm, hky⟩ := hy
          cases k with
          | text s => simp [times] at hky
          | br => simp [times] at hky
          | elem b bs => exact hne b bs hkm
        have h1 := ih.1
        rw [readAtL_noElem hne', items_timesL, hit, hnone] at h1
        simp only [Option.toList, timesL, readAtL, items, List.filter_nil]
        by_cases hw : v.win.at t = true
        · rw [if_pos hw] at h1 ⊢
          rw [readAt]
          split
          · exact h1
          · rfl
        · rw [if_neg hw]; rfl
      · by_cases hsp : kids.any (isSpan (fun x : Lab => x.att.kind)) = true
        · -- spans inside
          have hnone : (items kids).filter (keep exact) = [] := by
            rcases hl.1 with h1 | ⟨h1, _⟩
            · exact h1
            · rw [hsp] at h1; simp at h1
          have hvis := visible_of_kept hnone
          rw [← hit] at hvis
          rw [hvis] at he
          simp only [Bool.not_false, Bool.true_and, Bool.not_eq_false'] at he
          obtain ⟨h1, h2, h3⟩ := leafTiming_untimed ha' (by rw [hakind, isTimedLeaf_eq hk', he]; rfl)
          have htimes := times_untimed h1 h2 h3 ks
          simp only [Option.toList, timesL, htimes]
          refine ⟨?_, ?_⟩
          · simp only [readAtL, List.append_nil, readAt, items]
            by_cases hnil : (readAtL t (timesL 0 0 none ks)).filter (keep exact) = []
            · have hl0 : (if (compOf 0 0 none a' (timedKids (timesL 0 0 none ks))).at t = true then readAtL t (timesL 0 0 none ks) else []).filter (keep exact) = [] := by
                split
                · exact hnil
                · rfl
              rw [hl0]
              rw [ih.1] at hnil
              by_cases hw : v.win.at t = true
              · rw [if_pos hw] at hnil ⊢
                split
                · exact hnil.symm
                · rfl
              · rw [if_neg hw]; rfl
            · have hw : v.win.at t = true := by
                by_contra hw
                apply hnil
                rw [ih.1, if_neg hw, hnone]
              obtain ⟨y, ys, hym, hyat⟩ := active_kid (by rw [items_timesL, hit, hnone]) hnil
              obtain ⟨hyb, hy0⟩ := ih.2 y ys hym hyat
              have hc' := hull_at h1 h2 h3 (mem_timedKids.mpr ⟨y, ⟨ys, hym, hyb⟩, rfl⟩) hy0 hyat
              rw [if_pos hc', if_pos hw]
              have hih := ih.1
              rw [if_pos hw] at hih
              rw [hih] at hnil
              obtain ⟨z, zs, hzm, hzat⟩ := active_kid hnone hnil
              rw [if_pos ((hcov [] x kids z zs .here hzm).at hzat), hih]
          · intro y ys hy _
            rw [List.mem_singleton, Node.elem.injEq] at hy
            rw [hy.1]
            refine ⟨by unfold badly; rw [h1], ?_⟩
            simp only [compOf, h1]
            have hb : badly a' = false := by unfold badly; rw [h1]
            rw [hb]
            simp only [eff, Option.getD_none, Int.add_zero, ne_eq, not_true_eq_false, if_false, Option.isNone_none, if_true,
              Bool.false_eq_true, and_false]
            unfold postBegin
            split
            · exact Int.le_refl _
            · split <;> omega
        · -- a leaf
          have hsp : kids.any (isSpan (fun x : Lab => x.att.kind)) = false := by simpa using hsp
          have hleaf : Leaf (fun x : Lab => x.att.kind) x kids = true := by simp [Leaf, hk, hsp]
          have hfact := hlf [] x kids .here hleaf
          have hne0 := noElem_of_noSpan hk' hs.1 (by rw [isSpan_eraseL]; exact hsp)
          have hneK : ∀ y ys, Node.elem y ys ∉ kids := by
            intro y ys hy
            exact hne0 _ _ (by
              have := mem_eraseL hy
              simpa [erase] using this)
          have hsk : ks.any (isSpan Att.kind) = false := segList_noSpan hks hneK
          have hne := noElem_of_noSpan hk' hfit hsk
          obtain ⟨ks', htimes, hik, hneks'⟩ := times_noElem (a := a') hne
          obtain ⟨hat, h0, hbad⟩ := leaf_copy hv hfact hin (by rw [hakind]; exact hk') hsk ha' t
          simp only [Option.toList, timesL, htimes]
          refine ⟨?_, ?_⟩
          · simp only [readAtL, List.append_nil, readAt, items]
            rw [hat, readAtL_noElem hneks', readAtL_noElem hneK, hik, hit]
            cases v.win.at t <;> simp
          · intro y ys hy hyat
            rw [List.mem_singleton, Node.elem.injEq] at hy
            rw [hy.1] at hyat ⊢
            exact ⟨hbad hyat, h0⟩
theorem segL_read {v : Env} (hv : WinFact v) (exact : Bool) (t : Int) : ∀ (ns : List (Node Lab)) (out : List (Node Att)),
    segList v ns = .ok out → (eraseL ns).all (fits .span) = true → shapedL (eraseL ns) = true → linedL exact (eraseL ns) = true →
    (∀ k ∈ ns, Cov k) → (∀ k ∈ ns, LeafOk k) →
    (readAtL t (timesL 0 0 none out)).filter (keep exact) =
      (if v.win.at t then readAtL t ns else items ns).filter (keep exact) ∧
    ∀ y ys, Node.elem y ys ∈ timesL 0 0 none out → y.comp.at t = true → badly y.att = false ∧ 0 ≤ y.comp.b
  | [], out, h, _, _, _, _, _ => by
    simp only [segList, Except.ok.injEq] at h
    subst h
    refine ⟨?_, by simp [timesL]⟩
    cases v.win.at t <;> rfl
  | k :: ks, out, h, hf, hs, hl, hcov, hlf => by
    obtain ⟨o, rest, ho, hr, rfl⟩ := segList_cons h
    simp only [eraseL, List.all_cons, shapedL, linedL, Bool.and_eq_true] at hf hs hl
    have h1 := seg_read hv exact t k o ho hf.1 hs.1 hl.1 (hcov k List.mem_cons_self) (hlf k List.mem_cons_self)
    have h2 := segL_read hv exact t ks rest hr hf.2 hs.2 hl.2 (fun k' hk' => hcov k' (List.mem_cons_of_mem _ hk'))
      (fun k' hk' => hlf k' (List.mem_cons_of_mem _ hk'))
    rw [timesL_append]
    refine ⟨?_, ?_⟩
    · rw [readAtL_append, List.filter_append, h1.1, h2.1]
      by_cases hw : v.win.at t = true
      · rw [if_pos hw, if_pos hw, if_pos hw, readAtL, List.filter_append]
      · rw [if_neg hw, if_neg hw, if_neg hw, ← List.filter_append]
        congr 1
        cases k <;> rfl
    · intro y ys hy hat
      rw [List.mem_append] at hy
      rcases hy with hy | hy
      · exact h1.2 y ys hy hat
      · exact h2.2 y ys hy hat
end

/-! ### Paragraphs -/

/-- A paragraph's entry in the list of what is shown. -/
def view (exact : Bool) (l : List Item) : List (List Item) := ([l].filter Words).map (List.filter (keep exact))

theorem view_eq (exact : Bool) (l : List Item) :
    view exact l = if Words (l.filter (keep exact)) then [l.filter (keep exact)] else [] := by
  unfold view
  rw [words_keep]
  cases h : Words l <;> simp [h]

theorem view_congr {exact : Bool} {l l' : List Item} (h : l.filter (keep exact) = l'.filter (keep exact)) :
    view exact l = view exact l' := by
  rw [view_eq, view_eq, h]

theorem view_none {exact : Bool} {l : List Item} (h : Words l = false) : view exact l = [] := by
  rw [view_eq, words_keep, h]; rfl

theorem view_ite {exact : Bool} {l : List Item} {b : Bool} (h : Words l = false) : view exact (if b then l else []) = [] := by
  cases b
  · exact view_none rfl
  · exact view_none h

theorem linesAt_p {t : Int} {x : Lab} {kids : List (Node Lab)} (h : x.att.kind = .p) (exact : Bool) :
    (linesAt t (.elem x kids)).map (List.filter (keep exact)) = view exact (if x.comp.at t then readAtL t kids else []) := by
  rw [linesAt, if_pos h, readAt]; rfl

theorem noElem_timesL {ks : List (Node Att)} (hne : ∀ x kk, Node.elem x kk ∉ ks) (sync : Int) (bound : Option Int) :
    ∀ y ys, Node.elem y ys ∉ timesL 0 sync bound ks := by
  intro y ys hy
  rw [timesL_eq, List.mem_map] at hy
  obtain ⟨k, hkm, hky⟩ := hy
  cases k with
  | text s => simp [times] at hky
  | br => simp [times] at hky
  | elem b bs => exact hne b bs hkm

/-- A paragraph, its copy validated as part of a segment. -/
theorem seg_para {v : Env} (hv : WinFact v) (exact : Bool) (t : Int) (x : Lab) (kids : List (Node Lab)) (o : Option (Node Att))
    (h : segNode v (.elem x kids) = .ok o) (hk : x.att.kind = .p) (hs : shaped (erase (.elem x kids)) = true)
    (hl : lined exact (erase (.elem x kids)) = true) (hcov : Cov (.elem x kids)) (hlf : LeafOk (.elem x kids)) :
    (linesAtL t (timesL 0 0 none o.toList)).map (List.filter (keep exact)) =
      if v.win.at t then (linesAt t (.elem x kids)).map (List.filter (keep exact)) else [] := by
  rw [linesAt_p hk]
  have hk' : x.att.kind = .p ∨ x.att.kind = .span := .inl hk
  simp only [erase, shaped, lined, Bool.and_eq_true] at hs hl
  rw [hk] at hl
  simp only at hl
  rw [isSpan_eraseL, items_eraseL, Bool.or_eq_true, Bool.not_eq_true', Bool.not_eq_true'] at hl
  rcases segNode_elem h with ⟨hin, rfl⟩ | ⟨hin, a, ks, ha, hks, hcase⟩
  · simp only [Option.toList, timesL, linesAtL, List.map_nil]
    by_cases hw : v.win.at t = true
    · rw [if_pos hw, if_neg]
      · exact (view_none rfl).symm
      · intro hat
        rw [at_inSeg hw hat] at hin
        simp at hin
    · rw [if_neg hw]
  · have hfs : (eraseL kids).all (fits .span) = true := by
      rw [hk] at hs
      rw [List.all_eq_true] at hs ⊢
      intro k hkm
      have := hs.1 k hkm
      cases k <;> simp_all [fits]
    have ih := segL_read hv exact t kids ks hks hfs hs.2 hl.2 (fun k hkm => hcov.kid hkm) (fun k hkm => hlf.kid hkm)
    have hfit := segList_fits hks hs.1
    have hit := segList_items hks
    have htx : textsOk (items ks) = true := by
      rw [hit, ← items_eraseL]; exact textsOk_shaped hs.2
    rw [isEmpty_leafy hk' htx] at hcase
    have hakind := copyAtt_kind ha
    rcases hcase with ⟨he, rfl⟩ | ⟨he, a', ha', rfl⟩
    · -- discarded as empty
      simp only [Bool.and_eq_true, Bool.not_eq_true'] at he
      have hnone := words_visible he.1
      rw [hit] at hnone
      have hne := noElem_of_noSpan hk' hfit he.2
      have h1 := ih.1
      rw [readAtL_noElem (noElem_timesL hne 0 none), items_timesL, hit] at h1
      simp only [Option.toList, timesL, linesAtL, List.map_nil]
      by_cases hw : v.win.at t = true
      · rw [if_pos hw] at h1 ⊢
        rw [view_ite]
        rw [← words_keep exact, ← h1, words_keep, hnone]
      · rw [if_neg hw]
    · have hkind' : a'.kind = .p := by rw [(leafTiming_kind ha').1, hakind, hk]
      by_cases hsp : kids.any (isSpan (fun x : Lab => x.att.kind)) = true
      · -- spans inside
        have hnone : Words (items kids) = false := by
          rcases hl.1 with h1 | h1
          · rw [hsp] at h1; simp at h1
          · exact h1
        by_cases hsk : ks.any (isSpan Att.kind) = true
        · obtain ⟨h1, h2, h3⟩ := leafTiming_untimed ha' (by rw [hakind, isTimedLeaf_eq hk', hsk]; rfl)
          have htimes := times_untimed h1 h2 h3 ks
          simp only [Option.toList, timesL, htimes, linesAtL, List.append_nil]
          rw [linesAt_p hkind']
          simp only
          by_cases hnil : Words (readAtL t (timesL 0 0 none ks)) = true
          · have hw : v.win.at t = true := by
              by_contra hw
              have := ih.1
              rw [if_neg hw] at this
              rw [← words_keep exact, this, words_keep, hnone] at hnil
              simp at hnil
            have hnil1 : (readAtL t (timesL 0 0 none ks)).filter wordy ≠ [] := by
              intro hc
              rw [← words_filter, hnil] at hc
              simp at hc
            obtain ⟨y, ys, hym, hyat⟩ := active_kid (by rw [items_timesL, hit]; exact (words_filter _).mp hnone) hnil1
            obtain ⟨hyb, hy0⟩ := ih.2 y ys hym hyat
            have hc' := hull_at h1 h2 h3 (mem_timedKids.mpr ⟨y, ⟨ys, hym, hyb⟩, rfl⟩) hy0 hyat
            rw [if_pos hc', if_pos hw]
            have hih := ih.1
            rw [if_pos hw] at hih
            rw [← words_keep exact, hih, words_keep] at hnil
            obtain ⟨z, zs, hzm, hzat⟩ := active_kid ((words_filter _).mp hnone) (by
              intro hc
              rw [← words_filter, hnil] at hc
              simp at hc)
            rw [if_pos ((hcov [] x kids z zs .here hzm).at hzat)]
            exact view_congr hih
          · rw [Bool.not_eq_true] at hnil
            rw [view_ite hnil]
            by_cases hw : v.win.at t = true
            · have hih := ih.1
              rw [if_pos hw] at hih ⊢
              rw [view_ite]
              rw [← words_keep exact, ← hih, words_keep, hnil]
            · rw [if_neg hw]
        · have hsk : ks.any (isSpan Att.kind) = false := by simpa using hsk
          have hne := noElem_of_noSpan hk' hfit hsk
          obtain ⟨ks', htimes, hik, hneks'⟩ := times_noElem (a := a') hne
          simp only [Option.toList, timesL, htimes, linesAtL, List.append_nil]
          rw [linesAt_p hkind']
          rw [view_ite (by rw [readAtL_noElem hneks', hik, hit, hnone])]
          by_cases hw : v.win.at t = true
          · have hih := ih.1
            rw [if_pos hw] at hih ⊢
            rw [view_ite]
            rw [readAtL_noElem (noElem_timesL hne 0 none), items_timesL, hit] at hih
            rw [← words_keep exact, ← hih, words_keep, hnone]
          · rw [if_neg hw]
      · -- a leaf
        have hsp : kids.any (isSpan (fun x : Lab => x.att.kind)) = false := by simpa using hsp
        have hleaf : Leaf (fun x : Lab => x.att.kind) x kids = true := by simp [Leaf, hk, hsp]
        have hfact := hlf [] x kids .here hleaf
        have hne0 := noElem_of_noSpan hk' hs.1 (by rw [isSpan_eraseL]; exact hsp)
        have hneK : ∀ y ys, Node.elem y ys ∉ kids := by
          intro y ys hy
          exact hne0 _ _ (by
            have := mem_eraseL hy
            simpa [erase] using this)
        have hsk : ks.any (isSpan Att.kind) = false := segList_noSpan hks hneK
        have hne := noElem_of_noSpan hk' hfit hsk
        obtain ⟨ks', htimes, hik, hneks'⟩ := times_noElem (a := a') hne
        obtain ⟨hat, _, _⟩ := leaf_copy hv hfact hin (by rw [hakind]; exact hk') hsk ha' t
        simp only [Option.toList, timesL, htimes, linesAtL, List.append_nil]
        rw [linesAt_p hkind']
        simp only
        rw [hat, readAtL_noElem hneks', readAtL_noElem hneK, hik, hit]
        cases v.win.at t
        · simp only [Bool.false_and, Bool.false_eq_true, if_false]; exact view_none rfl
        · simp

mutual
theorem lines_none {t : Int} : ∀ (m : Node Lab), (∀ anc y ys, Reach m anc (.elem y ys) → y.comp.at t = false) → linesAt t m = []
  | .text _, _ => rfl
  | .br, _ => rfl
  | .elem x kids, h => by
    rw [linesAt]
    split
    · rw [readAt, if_neg (by rw [h [] x kids .here]; simp)]
      rfl
    · refine linesL_none kids ?_
      intro k hk anc y ys hr
      exact h (x :: anc) y ys (by
        have := reach_trans (x := x) (root := .elem x kids) (.here) hk hr
        simpa using this)
theorem linesL_none {t : Int} : ∀ (ns : List (Node Lab)),
    (∀ k ∈ ns, ∀ anc y ys, Reach k anc (.elem y ys) → y.comp.at t = false) → linesAtL t ns = []
  | [], _ => rfl
  | k :: ks, h => by
    rw [linesAtL, linesL_none ks (fun k' hk' => h k' (List.mem_cons_of_mem _ hk')), List.append_nil]
    exact lines_none k (h k List.mem_cons_self)
end

/-- Nothing is read inside an element that is not active. -/
theorem lines_inactive {t : Int} {x : Lab} {kids : List (Node Lab)} (hcov : Cov (.elem x kids))
    (hx : x.comp.at t = false) : linesAt t (.elem x kids) = [] := by
  refine lines_none _ ?_
  intro anc y ys hr
  cases hy : y.comp.at t with
  | false => rfl
  | true =>
    rw [(hcov.root hr y ys rfl).at hy] at hx
    simp at hx

/-! ### Containers -/

theorem isTimedLeaf_container {kd : Kind} (h : kd = .body ∨ kd = .div) (ks : List (Node Att)) : isTimedLeaf kd ks = false := by
  rcases h with rfl | rfl <;> rfl

/-- Not a span. -/
def noSpan : Node Att → Bool
  | .elem a _ => decide (a.kind ≠ .span)
  | _ => true

mutual
/-- What is read of a copy, validated as part of a segment. -/
theorem seg_lines {v : Env} (hv : WinFact v) (exact : Bool) (t : Int) : ∀ (n : Node Lab) (o : Option (Node Att)),
    segNode v n = .ok o → noSpan (erase n) = true → shaped (erase n) = true → lined exact (erase n) = true →
    Cov n → LeafOk n →
    (linesAtL t (timesL 0 0 none o.toList)).map (List.filter (keep exact)) =
      if v.win.at t then (linesAt t n).map (List.filter (keep exact)) else []
  | .text s, o, h, _, _, _, _, _ => by
    simp only [segNode, Except.ok.injEq] at h
    subst h
    cases v.win.at t <;> rfl
  | .br, o, h, _, _, _, _, _ => by
    simp only [segNode, Except.ok.injEq] at h
    subst h
    cases v.win.at t <;> rfl
  | .elem x kids, o, h, hf, hs, hl, hcov, hlf => by
    by_cases hk : x.att.kind = .p
    · exact seg_para hv exact t x kids o h hk hs hl hcov hlf
    · have hkd : x.att.kind = .body ∨ x.att.kind = .div := by
        simp only [erase, noSpan, decide_eq_true_eq] at hf
        cases hkd : x.att.kind <;> simp_all
      rw [linesAt, if_neg hk]
      simp only [erase, shaped, lined, Bool.and_eq_true] at hs hl
      rcases segNode_elem h with ⟨hin, rfl⟩ | ⟨hin, a, ks, ha, hks, hcase⟩
      · simp only [Option.toList, timesL, linesAtL, List.map_nil]
        by_cases hw : v.win.at t = true
        · rw [if_pos hw]
          have : linesAt t (.elem x kids) = [] := lines_inactive hcov (by
            cases hat : x.comp.at t with
            | false => rfl
            | true => rw [at_inSeg hw hat] at hin; simp at hin)
          rw [linesAt, if_neg hk] at this
          rw [this]; rfl
        · rw [if_neg hw]
      · have hns : (eraseL kids).all noSpan = true := by
          rw [List.all_eq_true] at hs ⊢
          intro k hkm
          have := hs.1 k hkm
          cases k with
          | text s => rfl
          | br => rfl
          | elem b bs =>
            simp only [noSpan, decide_eq_true_eq]
            intro hb
            rcases hkd with hkd | hkd <;> rw [hkd] at this <;> simp [fits, hb] at this
        have ih := segL_lines hv exact t kids ks hks hns hs.2 hl.2 (fun k hkm => hcov.kid hkm) (fun k hkm => hlf.kid hkm)
        have hfit := segList_fits hks hs.1
        have hakind := copyAtt_kind ha
        rcases hcase with ⟨he, rfl⟩ | ⟨_, a', ha', rfl⟩
        · rcases hkd with hkd | hkd
          · rw [hkd] at he; simp [isEmpty] at he
          · rw [hkd] at he hfit
            have hne := noElem_of_emptyDiv hfit he
            rw [linesAtL_noElem (noElem_timesL hne 0 none)] at ih
            exact ih
        · obtain ⟨h1, h2, h3⟩ := leafTiming_untimed ha' (by rw [hakind]; exact isTimedLeaf_container hkd ks)
          have hkind' : a'.kind ≠ .p := by rw [(leafTiming_kind ha').1, hakind]; exact hk
          simp only [Option.toList, timesL, times_untimed h1 h2 h3 ks, linesAtL, List.append_nil, linesAt, if_neg hkind']
          exact ih
theorem segL_lines {v : Env} (hv : WinFact v) (exact : Bool) (t : Int) : ∀ (ns : List (Node Lab)) (out : List (Node Att)),
    segList v ns = .ok out → (eraseL ns).all noSpan = true → shapedL (eraseL ns) = true → linedL exact (eraseL ns) = true →
    (∀ k ∈ ns, Cov k) → (∀ k ∈ ns, LeafOk k) →
    (linesAtL t (timesL 0 0 none out)).map (List.filter (keep exact)) =
      if v.win.at t then (linesAtL t ns).map (List.filter (keep exact)) else []
  | [], out, h, _, _, _, _, _ => by
    simp only [segList, Except.ok.injEq] at h
    subst h
    cases v.win.at t <;> rfl
  | k :: ks, out, h, hf, hs, hl, hcov, hlf => by
    obtain ⟨o, rest, ho, hr, rfl⟩ := segList_cons h
    simp only [eraseL, List.all_cons, shapedL, linedL, Bool.and_eq_true] at hf hs hl
    have h1 := seg_lines hv exact t k o ho hf.1 hs.1 hl.1 (hcov k List.mem_cons_self) (hlf k List.mem_cons_self)
    have h2 := segL_lines hv exact t ks rest hr hf.2 hs.2 hl.2 (fun k' hk' => hcov k' (List.mem_cons_of_mem _ hk'))
      (fun k' hk' => hlf k' (List.mem_cons_of_mem _ hk'))
    rw [timesL_append, linesAtL_append, List.map_append, h1, h2]
    cases v.win.at t
    · rfl
    · simp only [if_true]; rw [← List.map_append]; rfl
end

/-- The segment as a document of its own, from the elements copied. -/
theorem segment_lines {v : Env} (hv : WinFact v) (exact : Bool) (t : Int) {x : Lab} {kids : List (Node Lab)}
    (hx : x.att.kind = .body) (hs : shaped (erase (.elem x kids)) = true) (hl : lined exact (erase (.elem x kids)) = true)
    (hcov : Cov (.elem x kids)) (hlf : LeafOk (.elem x kids)) {seg : Node Att} (h : segment v (.elem x kids) = .ok seg) :
    (linesAt t (times 0 0 none seg)).map (List.filter (keep exact)) =
      if v.win.at t then (linesAt t (.elem x kids)).map (List.filter (keep exact)) else [] := by
  obtain ⟨a, ks, hseg, hk, hcase⟩ := segment_cases h
  have hall := seg_lines hv exact t _ _ hseg (by simp [erase, noSpan, hx]) hs hl hcov hlf
  simp only [Option.toList, timesL, linesAtL, List.append_nil] at hall
  rcases hcase with ⟨_, rfl⟩ | ⟨rfl, b, e, _, _, rfl⟩
  · exact hall
  · have hkp : a.kind ≠ .p := by rw [hk, hx]; simp
    rw [← hall]
    simp only [times, timesL, linesAt, if_neg hkp, linesAtL]

end Verif.Doc
