import Verif.Seq.Late
import Verif.Seq.NoFail

/-!
C08: what a late document that does not fit leads to.  Helper lemmas; the property theorems are in
`Verif.Seq.LateProps`.
-/
namespace Verif.Seq

theorem scanFwd_all_fin {d : Doc} {bb : Option Event} {L : List Event} : ∀ {ea ea' tr : Option Event},
    (∀ e ∈ L, e.doc.num < d.num) → scanFwd d bb ea L = .ok ea' tr → ∀ e ∈ L, e.kind = .fin := by
  induction L with
  | nil => intro _ _ _ _ _ e he; simp at he
  | cons f r ih =>
    intro ea ea' tr hn h e he
    have hf := hn f List.mem_cons_self
    cases hk : f.kind with
    | bgn =>
      unfold scanFwd at h
      rw [hk] at h
      simp [hf] at h
    | fin =>
      rcases List.mem_cons.mp he with rfl | he
      · exact hk
      · have hn' : ∀ e ∈ r, e.doc.num < d.num := fun e he => hn e (List.mem_cons_of_mem _ he)
        unfold scanFwd at h
        rw [hk] at h
        simp only at h
        split at h
        · split at h
          · simp at h
          · exact ih hn' h e he
        · exact ih hn' h e he

/-- Overriding an alternating run of older documents removes it. -/
theorem override_run {b : Int} {n : Nat} {C : List Event} (ha : Alt C)
    (hC : ∀ e ∈ C, b ≤ e.time ∧ e.doc.num < n) : (overrideScan b n [] C).1 = [] := by
  cases C with
  | nil => rfl
  | cons e r =>
    have hk : e.kind = .bgn := by
      cases hk : e.kind with
      | bgn => rfl
      | fin => obtain ⟨l', a, g, _⟩ := ha [] e r rfl hk; simp at g
    simp only [overrideScan]
    obtain ⟨g1, g2⟩ := hC e List.mem_cons_self
    rw [if_pos ⟨g1, g2, by simp [hk]⟩]
    refine overrideScan_all b n r _ [e] (by simpa using ha)
      (fun x hm => hC x (List.mem_cons_of_mem _ hm)) ?_ (by simp)
    intro l a hla
    obtain ⟨_, h4⟩ := List.append_inj' (s₁ := []) hla rfl
    injection h4 with h4
    simp [← h4]

/-- Two ends in a row on the timeline: the next newest document that begins there makes
`add_document` raise `ValueError`. -/
theorem bad_tail {ex : Prop} {s : State} {d : Doc} {g : Option String} {X C : List Event} {f1 f2 : Event}
    (hc : Core ex [] s.docs s.timeline) (htl : s.timeline = X ++ f1 :: f2 :: C)
    (hk1 : f1.kind = .fin) (hk2 : f2.kind = .fin) (hX : ∀ e ∈ X, e.time < d.cbegin)
    (h1 : f1.time ≤ d.cbegin) (h2 : f2.time ≤ d.cbegin) (hCt : ∀ e ∈ C, d.cbegin ≤ e.time)
    (hCa : Alt C) (hnum : ∀ e ∈ s.timeline, e.doc.num < d.num) (hg : checkCompat s d = .ok g) :
    (addDocument s d).2 = .valueError := by
  have n1 := hnum f1 (by rw [htl]; simp)
  have n2 := hnum f2 (by rw [htl]; simp)
  have hbase : ∀ docs, insertOrDiscard docs (X ++ [f1, f2]) d = .valueError := by
    intro docs
    unfold insertOrDiscard
    have : (X ++ [f1, f2]).filter (fun x => decide (x.time ≤ d.cbegin)) = X ++ [f1, f2] := by
      rw [List.filter_eq_self]
      intro x hx
      simp only [List.mem_append, List.mem_cons, List.not_mem_nil, or_false] at hx
      rcases hx with hx | rfl | rfl
      · have := hX x hx; simp; omega
      · simpa using h1
      · simpa using h2
    rw [this]
    simp only [List.reverse_append, List.reverse_cons, List.reverse_nil, List.nil_append, List.cons_append]
    unfold scanBack
    rw [if_neg (by omega), hk2]
    simp only
    unfold scanBack
    rw [if_neg (by omega), hk1]
  unfold addDocument
  rw [hg]
  simp only
  cases hi : insertOrDiscard s.docs s.timeline d with
  | valueError => rfl
  | discarded x =>
    obtain ⟨e, he, _, hex, hn⟩ := insertOrDiscard_discarded hi
    have := hnum e he
    rw [hex] at this; omega
  | typeError =>
    obtain ⟨_, it, hit, _, hn, _⟩ := insertOrDiscard_typeError hi
    have := hnum it hit; omega
  | overridden =>
    simp only
    unfold retry
    obtain ⟨s', hs', _⟩ := override_core (s := { s with agid := g }) (d := d) hc
    rw [hs']
    have htl' : s'.timeline = X ++ [f1, f2] := by
      unfold overrideSequence at hs'
      simp only at hs'
      split at hs'
      · simp at hs'
      · injection hs' with hs'
        rw [← hs']
        simp only
        rw [htl, overrideScan_skip _ _ _ _ _ hX]
        have : (overrideScan d.cbegin d.num [] (f1 :: f2 :: C)).1 = [f1, f2] := by
          simp only [overrideScan]
          rw [if_neg (by simp [hk1])]
          simp only
          rw [if_neg (by simp [hk2])]
          simp only
          rw [override_run hCa (fun e he => ⟨hCt e he, hnum e (by rw [htl]; simp [he])⟩)]
        rw [this]
    simp only
    rw [htl', hbase]
  | ok docs' tl' =>
    exfalso
    cases C with
    | nil => rw [htl, hbase] at hi; simp at hi
    | cons c C' =>
      have hk : c.kind = .bgn := by
        cases hk : c.kind with
        | bgn => rfl
        | fin => obtain ⟨l', a, g, _⟩ := hCa [] c C' rfl hk; simp at g
      unfold insertOrDiscard at hi
      split at hi
      · simp at hi
      · simp at hi
      split at hi
      · simp at hi
      · simp at hi
      · simp at hi
      · rename_i hf
        have := scanFwd_all_fin (fun e he => hnum e (List.mem_filter.mp he).1) hf c (List.mem_filter.mpr
          ⟨by rw [htl]; simp, by simpa using hCt c List.mem_cons_self⟩)
        rw [hk] at this
        simp at this

theorem compat_next {s s1 : State} {d x : Doc} {g : Option String} (hg : checkCompat s d = .ok g)
    (hcfg : s1.cfg = s.cfg) (hag : s1.agid = g) (hp : s1.docs.Pairwise DRel)
    (hn : ∀ y ∈ s1.docs, y.num ≠ x.num) (h1 : x.seqId = d.seqId) (h2 : x.timeBase = d.timeBase)
    (h3 : x.clockMode = d.clockMode) (h4 : x.agid = d.agid) : checkCompat s1 x = .ok g := by
  have he : existsNum s1.docs x.num = false := by
    cases hh : existsNum s1.docs x.num with
    | false => rfl
    | true =>
      obtain ⟨y, hy, hyn⟩ := (existsNum_iff hp x.num).mp hh
      exact absurd hyn (hn y hy)
  unfold checkCompat at hg ⊢
  rw [hcfg, hag, he, h1, h2, h3, h4]
  split at hg
  · simp at hg
  rename_i c1
  rw [if_neg c1]
  split at hg
  · simp at hg
  rename_i c2
  rw [if_neg c2]
  split at hg
  · simp at hg
  simp only [Bool.false_eq_true, if_false]
  cases hd : d.agid with
  | none => simp
  | some g0 =>
    rw [hd] at hg
    simp only at hg ⊢
    by_cases hg0 : g0 = ""
    · rw [if_pos hg0]
    · rw [if_neg hg0] at hg ⊢
      cases hs : s.agid with
      | none =>
        rw [hs] at hg
        simp only [Except.ok.injEq] at hg
        rw [← hg]
        simp
      | some g1 =>
        rw [hs] at hg
        simp only at hg
        split at hg
        · simp at hg
        · rename_i hgg
          simp only [Except.ok.injEq] at hg
          rw [← hg]
          simp only
          rw [if_neg hgg]

theorem exists_above : ∀ l : List Doc, ∃ N : Nat, ∀ x ∈ l, x.num < N := by
  intro l
  induction l with
  | nil => exact ⟨0, by simp⟩
  | cons x xs ih =>
    obtain ⟨N, hN⟩ := ih
    refine ⟨max N (x.num + 1), ?_⟩
    intro y hy
    rcases List.mem_cons.mp hy with rfl | hy
    · omega
    · have := hN y hy; omega

/-- What adding a document does to a tidy state in which newer documents begin later. -/
theorem late_result {s : State} {d : Doc} {g : Option String} {A C : List Event} {y : Event} {r : List Event}
    (h : Tidy s) (hwt : WellTimed d) (hg : checkCompat s d = .ok g) (htl : s.timeline = A ++ C)
    (hA : Alt A) (hAn : ∀ e ∈ A, e.doc.num < d.num) (hCn : ∀ e ∈ C, d.num < e.doc.num)
    (hC : C = y :: r) (hk : y.kind = .bgn) (hCt : ∀ x ∈ C, d.cbegin < x.time) :
    (d.cend = none → (addDocument s d).2 = .typeError) ∧
    ∀ e, d.cend = some e → ∃ s0 : State, ∃ T : List Event, s0.cfg = s.cfg ∧ s0.agid = g ∧
      (∀ x ∈ T, x.time = d.cbegin ∨ x ∈ A) ∧
      addDocument s d = inserted s0 d (insertDoc d s0.docs) (insertOnTimeline (T ++ C) d (some (min e y.time))) := by
  have hrelA : A.Pairwise Rel := by
    have := h.core.rel; rw [htl] at this; exact (List.pairwise_append.mp this).1
  have hyn := hCn y (by rw [hC]; simp)
  obtain ⟨h1, h2⟩ := iod_late (docs := s.docs) (C := C) hAn hC hk hyn hCt
  rcases newest_insert (docs := s.docs) hrelA hA hwt hAn with hov | ⟨docs', tl', hok, _⟩
  · have hov' := h1 hov
    rw [← htl] at hov'
    obtain ⟨s', hs', hc, hdocs, hsub, hkp, hrm, hcfg, hag, hlast, hgone⟩ :=
      override_core (s := { s with agid := g }) (d := d) h.core
    have htl' : s'.timeline = (overrideScan d.cbegin d.num [] A).1 ++ C := by
      have hs'' := hs'
      unfold overrideSequence at hs''
      simp only at hs''
      split at hs''
      · simp at hs''
      · injection hs'' with hs''
        rw [← hs'']
        simp only
        rw [htl, overrideScan_newer hCn]
    have hss := overrideScan_sublist d.cbegin d.num A []
    have hAn' : ∀ e ∈ (overrideScan d.cbegin d.num [] A).1, e.doc.num < d.num := fun e he => hAn e (hss.subset he)
    obtain ⟨h1', h2'⟩ := iod_late (docs := s'.docs) (C := C) hAn' hC hk hyn hCt
    rw [← htl'] at h1' h2'
    have hret := retry_insert (s := { s with agid := g }) h.core hov' hs'
    have hadd : addDocument s d = retry { s with agid := g } d := by
      unfold addDocument
      rw [hg]
      simp only
      rw [hov']
    rcases newest_insert (docs := s'.docs) (hrelA.sublist hss) (alt_override hrelA hA hAn) hwt hAn'
      with hov2 | ⟨docs', tl', hok, _⟩
    · exact absurd (h1' hov2) (hret d).2
    · obtain ⟨T, hT, _, hnone, hsome⟩ := h2' docs' tl' hok
      rw [hadd]
      unfold retry
      rw [hs']
      simp only
      constructor
      · intro hn; rw [hnone hn]
      · intro e he
        rw [hsome e he]
        refine ⟨s', T, hcfg, hag, ?_, rfl⟩
        intro x hx
        rcases hT x hx with h' | h'
        · exact .inl h'
        · exact .inr (hss.subset h')
  · obtain ⟨T, hT, _, hnone, hsome⟩ := h2 docs' tl' hok
    rw [← htl] at hnone hsome
    unfold addDocument
    rw [hg]
    simp only
    constructor
    · intro hn; rw [hnone hn]
    · intro e he
      rw [hsome e he]
      exact ⟨{ s with agid := g }, T, rfl, rfl, hT, rfl⟩

theorem split_unique {α : Type} {y : α} {l l' r r' : List α} (h : l ++ y :: r = l' ++ y :: r')
    (h1 : y ∉ l) (h2 : y ∉ l') : r = r' := by
  rcases List.append_eq_append_iff.mp h with ⟨a, e1, e2⟩ | ⟨a, e1, e2⟩
  · cases a with
    | nil => simpa using e2
    | cons x xs =>
      simp only [List.cons_append, List.cons.injEq] at e2
      exact absurd (by rw [e1, e2.1]; simp) h2
  · cases a with
    | nil => simpa using e2.symm
    | cons x xs =>
      simp only [List.cons_append, List.cons.injEq] at e2
      exact absurd (by rw [e1, e2.1]; simp) h1

/-- The second event of an alternating suffix is the end of the first document. -/
theorem alt_second {s : State} (h : Tidy s) {A : List Event} {y f : Event} {r : List Event}
    (htl : s.timeline = A ++ y :: f :: r) (hy : y.kind = .bgn) : f.kind = .fin ∧ f.doc = y.doc := by
  have hym : y ∈ s.timeline := by rw [htl]; simp
  have hfm : f ∈ s.timeline := by rw [htl]; simp
  obtain ⟨y1, y2⟩ := h.core.bgn y hym hy
  cases hk : f.kind with
  | fin =>
    obtain ⟨l', a, g1, _, g3⟩ := h.alt (A ++ [y]) f r (by rw [htl]; simp) hk
    obtain ⟨_, h6⟩ := List.append_inj' g1 rfl
    injection h6 with h6
    exact ⟨rfl, by rw [← g3, h6]⟩
  | bgn =>
    exfalso
    obtain ⟨f1, f2⟩ := h.core.bgn f hfm hk
    have hnd := h.core.nodup
    rw [htl] at hnd
    have hnd2 := (List.nodup_append.mp hnd).2.1
    have hsort := alt_sorted h.core h.alt
    rw [htl] at hsort
    have hle := (List.pairwise_cons.mp (List.pairwise_append.mp hsort).2.1).1 f List.mem_cons_self
    have hne : y.doc ≠ f.doc := by
      intro he
      have : y = f := by rw [y2, f2, he]
      exact (List.nodup_cons.mp hnd2).1 (by rw [this]; simp)
    have hrel : DRel y.doc f.doc := by
      rcases drel_cases h.core.drel y1 f1 with e | e | e
      · exact absurd e hne
      · exact e
      · have := e.1; omega
    obtain ⟨e, he, hke, hen, _⟩ := h.core.hasEnd y.doc y1 f.doc.cbegin (.inr ⟨f.doc, f1, hrel.1, rfl⟩)
    have hed : e.doc = y.doc := drel_eq h.core.drel (h.fin e he hke) y1 hen
    obtain ⟨l, r', hlr⟩ := List.append_of_mem he
    obtain ⟨l', a, g1, g2, g3⟩ := h.alt l e r' hlr hke
    have hay : a = y := by
      have := (h.core.bgn a (by rw [hlr, g1]; simp) g2).2
      rw [this, g3, hed, ← y2]
    have e1 : l' ++ y :: e :: r' = A ++ y :: f :: r := by rw [← htl, hlr, g1, hay]; simp
    have hnd' : (l' ++ y :: e :: r').Nodup := by rw [e1]; exact hnd
    have := split_unique e1 (fun hm => (List.nodup_append.mp hnd').2.2 y hm y (by simp) rfl)
      (fun hm => (List.nodup_append.mp hnd).2.2 y hm y (by simp) rfl)
    injection this with this _
    rw [this, hk] at hke
    simp at hke

/-- After a document that does not fit, some newer documents in order make the sequence fail. -/
theorem unfit_fails {s : State} {d : Doc} {g : Option String} (h : Tidy s) (hwt : WellTimed d)
    (hg : checkCompat s d = .ok g) (hfit : ¬ FitsIn s.docs d) :
    ∃ ds : List Doc, (∀ x ∈ ds, WellTimed x) ∧ ds.Pairwise (fun a b => a.num < b.num) ∧
      (∀ x ∈ ds, d.num < x.num ∧ ∀ y ∈ s.docs, y.num < x.num) ∧
      ∃ o ∈ (run s (d :: ds)).2, o.internal = true := by
  have hdom : ¬ ∃ z ∈ s.docs, d.num < z.num ∧ z.cbegin ≤ d.cbegin := fun hh => hfit (.inl hh)
  have hbeg : ∀ y ∈ s.docs, d.num < y.num → d.cbegin < y.cbegin := by
    intro y hy hn
    rcases Int.lt_or_le d.cbegin y.cbegin with h' | h'
    · exact h'
    · exact absurd ⟨y, hy, hn, h'⟩ hdom
  have hex : ∃ y ∈ s.docs, d.num < y.num ∧ ∀ e, d.cend = some e → y.cbegin ≤ e := by
    apply Classical.byContradiction
    intro hno
    refine hfit (.inr ?_)
    intro y hy hn
    apply Classical.byContradiction
    intro hno2
    refine hno ⟨y, hy, hn, ?_⟩
    intro e he
    apply Classical.byContradiction
    intro hlt
    exact hno2 ⟨e, he, by omega⟩
  obtain ⟨y0, hy0, hn0, hend0⟩ := hex
  have hne := compat_new h.core.drel hg
  obtain ⟨A, C, htl, hA, hC, hAn, hCn, hCh⟩ := tidy_split h hne
  have hsubC : ∀ e ∈ C, e ∈ s.timeline := fun e he => by rw [htl]; simp [he]
  have hCt := tidy_times h hsubC hCn hbeg
  have hy0C : beginEvent y0 ∈ C := by
    have hm := h.core.hasBgn y0 hy0
    rw [htl] at hm
    rcases List.mem_append.mp hm with hm | hm
    · have := hAn _ hm; simp [beginEvent] at this; omega
    · exact hm
  rcases hCh with hnil | ⟨y, r, hCy, hk⟩
  · rw [hnil] at hy0C; simp at hy0C
  obtain ⟨hr1, hr2⟩ := late_result h hwt hg htl hA hAn hCn hCy hk hCt
  cases hce : d.cend with
  | none =>
    refine ⟨[], by simp, by simp, by simp, .typeError, ?_, rfl⟩
    simp [run, hr1 hce]
  | some e =>
    obtain ⟨s0, T, hcfg0, hag0, hT, hadd⟩ := hr2 e hce
    have hrelAC := h.core.rel
    rw [htl, hCy] at hrelAC
    obtain ⟨_, hrelC, hcross⟩ := List.pairwise_append.mp hrelAC
    have hry : ∀ x ∈ r, y.time ≤ x.time := fun x hx => ((List.pairwise_cons.mp hrelC).1 x hx).1
    have hyt : y.time ≤ e := by
      have h1 := hend0 e hce
      rw [hCy] at hy0C
      rcases List.mem_cons.mp hy0C with h' | h'
      · rw [← h']; exact h1
      · have := hry _ h'; simp [beginEvent] at this; omega
    have hdy := hCt y (by rw [hCy]; simp)
    have hny := hCn y (by rw [hCy]; simp)
    rw [show min e y.time = y.time by omega] at hadd
    -- the timeline after adding `d`
    have hXle : ∀ x ∈ insertEv (beginEvent d) T, x.time ≤ y.time := by
      intro x hx
      rcases mem_insertEv.mp hx with rfl | hx
      · simp [beginEvent]; omega
      · rcases hT x hx with h' | h'
        · omega
        · exact (hcross x h' y List.mem_cons_self).1
    have htl1 : (addDocument s d).1.timeline =
        (insertEv (beginEvent d) T ++ [y]) ++ insertEv ⟨.fin, d, y.time⟩ r := by
      rw [hadd]
      simp only [inserted, insertOnTimeline]
      rw [insertEv_append_left (e := beginEvent d) hCt, insertEv_append_right (e := ⟨.fin, d, y.time⟩) hXle, hCy]
      simp [insertEv]
    have hins : (addDocument s d).2 = .inserted := by rw [hadd]; rfl
    have hcfg1 : (addDocument s d).1.cfg = s.cfg := by rw [hadd]; exact hcfg0
    have hag1 : (addDocument s d).1.agid = g := by rw [hadd]; exact hag0
    have heff : Core True [] (addDocument s d).1.docs (addDocument s d).1.timeline ∧
        FinIn (addDocument s d).1.docs (addDocument s d).1.timeline ∧
        ∀ x ∈ (addDocument s d).1.docs, x = d ∨ x ∈ s.docs := by
      rcases add_effect h.core hwt with ⟨ho, _⟩ | ⟨_, hc, hdocs, _, _, _, _, _, hf⟩ |
        ⟨ho, _⟩ | ⟨ho, _⟩ | ⟨ho, _⟩
      · rw [hins] at ho; simp [Outcome.refused] at ho
      · refine ⟨hc, hf h.fin, fun x hx => ?_⟩
        rcases (hdocs x).mp hx with h' | h'
        · exact .inl h'
        · exact .inr h'.1
      · rw [hins] at ho; simp at ho
      · rw [hins] at ho; simp [Outcome.internal, Outcome.ok] at ho
      · rw [hins] at ho; simp at ho
    generalize hs1 : addDocument s d = q at *
    obtain ⟨hc1, hf1, hd1⟩ := heff
    generalize hX : insertEv (beginEvent d) T ++ [y] = X at *
    have hXle' : ∀ x ∈ X, x.time ≤ y.time := by
      intro x hx
      rw [← hX] at hx
      rcases List.mem_append.mp hx with hx | hx
      · exact hXle x hx
      · rw [List.mem_singleton] at hx; rw [hx]; exact Int.le_refl _
    obtain ⟨N, hN⟩ := exists_above (d :: s.docs)
    have hNd := hN d List.mem_cons_self
    have hNs : ∀ x ∈ s.docs, x.num < N := fun x hx => hN x (List.mem_cons_of_mem _ hx)
    have hN1 : ∀ x ∈ q.1.docs, x.num < N := by
      intro x hx
      rcases hd1 x hx with rfl | hx
      · exact hNd
      · exact hNs x hx
    have hev : ∀ (s : State), Core True [] s.docs s.timeline → FinIn s.docs s.timeline →
        ∀ e ∈ s.timeline, e.doc ∈ s.docs := by
      intro s hc hf e he
      cases hk : e.kind with
      | bgn => exact (hc.bgn e he hk).1
      | fin => exact hf e he hk
    have hpos : 0 ≤ y.time := by have := hwt.1; omega
    -- one more document at `v`
    have hone : ∀ (v : Int) (f1 f2 : Event) (C' : List Event), y.time < v →
        q.1.timeline = X ++ f1 :: f2 :: C' → f1.kind = .fin → f2.kind = .fin → f1.time ≤ v → f2.time ≤ v →
        (∀ e ∈ C', v ≤ e.time) → Alt C' →
        ∃ ds : List Doc, (∀ x ∈ ds, WellTimed x) ∧ ds.Pairwise (fun a b => a.num < b.num) ∧
          (∀ x ∈ ds, d.num < x.num ∧ ∀ y ∈ s.docs, y.num < x.num) ∧
          ∃ o ∈ (run s (d :: ds)).2, o.internal = true := by
      intro v f1 f2 C' hv htlq k1 k2 t1 t2 hC't hC'a
      refine ⟨[{ d with num := N, cbegin := v, cend := none }], ?_, by simp, ?_, .valueError, ?_, rfl⟩
      · intro x hx
        rw [List.mem_singleton] at hx
        subst hx
        exact ⟨by simp; omega, by simp⟩
      · intro x hx
        rw [List.mem_singleton] at hx
        subst hx
        exact ⟨hNd, hNs⟩
      · have hg1 : checkCompat q.1 { d with num := N, cbegin := v, cend := none } = .ok g :=
          compat_next hg hcfg1 hag1 hc1.drel (fun y hy => by have := hN1 y hy; simp; omega) rfl rfl rfl rfl
        have := bad_tail (d := { d with num := N, cbegin := v, cend := none }) hc1 htlq k1 k2
          (fun e he => by have := hXle' e he; simp; omega) t1 t2 hC't hC'a
          (fun e he => hN1 _ (hev _ hc1 hf1 e he)) hg1
        simp [run, hs1, this]
    cases r with
    | nil =>
      -- `y` has not ended: two more documents
      simp only [insertEv] at htl1
      generalize hd1' : ({ d with num := N, cbegin := y.time + 1, cend := none } : Doc) = a at *
      have ha1 : a.num = N := by rw [← hd1']
      have ha2 : a.cbegin = y.time + 1 := by rw [← hd1']
      have ha3 : a.cend = none := by rw [← hd1']
      have hwa : WellTimed a := ⟨by omega, by rw [ha3]; simp⟩
      have hg1 : checkCompat q.1 a = .ok g :=
        compat_next hg hcfg1 hag1 hc1.drel (fun y hy => by have := hN1 y hy; omega)
          (by rw [← hd1']) (by rw [← hd1']) (by rw [← hd1']) (by rw [← hd1'])
      have hf1le : q.1.timeline.filter (fun x => decide (x.time ≤ a.cbegin)) = q.1.timeline := by
        rw [List.filter_eq_self]
        intro x hx
        rw [htl1] at hx
        rcases List.mem_append.mp hx with hx | hx
        · have := hXle' x hx; simp; omega
        · rw [List.mem_singleton] at hx; subst hx; simp; omega
      have hf1ge : q.1.timeline.filter (fun x => decide (a.cbegin ≤ x.time)) = [] := by
        rw [List.filter_eq_nil_iff]
        intro x hx
        rw [htl1] at hx
        rcases List.mem_append.mp hx with hx | hx
        · have := hXle' x hx; simp; omega
        · rw [List.mem_singleton] at hx; subst hx; simp; omega
      have hyN : y.doc.num < N := hNs _ (h.core.bgn y (hsubC y (by rw [hCy]; simp)) hk).1
      have hsb : scanBack a.num none q.1.timeline.reverse = .ok (some y) := by
        rw [htl1, ← hX]
        simp only [List.reverse_append, List.reverse_cons, List.reverse_nil, List.nil_append, List.cons_append]
        unfold scanBack
        rw [if_neg (by simp; omega)]
        simp only
        unfold scanBack
        rw [if_neg (by omega), hk]
        simp only
        rw [if_pos (by omega)]
      have hadd2 : addDocument q.1 a = inserted { q.1 with agid := g } a (insertDoc a q.1.docs)
          (X ++ [⟨.fin, d, y.time⟩] ++ [⟨.fin, y.doc, y.time + 1⟩] ++ [beginEvent a]) := by
        unfold addDocument
        rw [hg1]
        simp only
        unfold insertOrDiscard
        rw [hf1le, hsb]
        simp only
        rw [hf1ge]
        simp only [scanFwd, trimPrev, thisEnd, ha3, insertOnTimeline]
        have i1 : insertEv ⟨.fin, y.doc, a.cbegin⟩ q.1.timeline =
            X ++ [⟨.fin, d, y.time⟩] ++ [⟨.fin, y.doc, y.time + 1⟩] := by
          rw [insertEv_last, htl1, ha2]
          intro x hx
          rw [← hf1le] at hx
          simpa using (List.mem_filter.mp hx).2
        rw [i1, insertEv_last]
        intro x hx
        simp only [List.mem_append, List.mem_singleton] at hx
        rcases hx with (hx | rfl) | rfl
        · have := hXle' x hx; simp [beginEvent]; omega
        · simp [beginEvent]; omega
        · simp [beginEvent]; omega
      have heff2 : Core True [] (addDocument q.1 a).1.docs (addDocument q.1 a).1.timeline ∧
          FinIn (addDocument q.1 a).1.docs (addDocument q.1 a).1.timeline ∧
          ∀ x ∈ (addDocument q.1 a).1.docs, x = a ∨ x ∈ q.1.docs := by
        have hins2 : (addDocument q.1 a).2 = .inserted := by rw [hadd2]; rfl
        rcases add_effect hc1 hwa with ⟨ho, _⟩ | ⟨_, hc, hdocs, _, _, _, _, _, hf⟩ |
          ⟨ho, _⟩ | ⟨ho, _⟩ | ⟨ho, _⟩
        · rw [hins2] at ho; simp [Outcome.refused] at ho
        · refine ⟨hc, hf hf1, fun x hx => ?_⟩
          rcases (hdocs x).mp hx with h' | h'
          · exact .inl h'
          · exact .inr h'.1
        · rw [hins2] at ho; simp at ho
        · rw [hins2] at ho; simp [Outcome.internal, Outcome.ok] at ho
        · rw [hins2] at ho; simp at ho
      have htl2 : (addDocument q.1 a).1.timeline =
          X ++ ⟨.fin, d, y.time⟩ :: ⟨.fin, y.doc, y.time + 1⟩ :: [beginEvent a] := by
        rw [hadd2]; simp [inserted]
      have hcfg2 : (addDocument q.1 a).1.cfg = s.cfg := by rw [hadd2]; exact hcfg1
      have hag2 : (addDocument q.1 a).1.agid = g := by rw [hadd2]; rfl
      generalize hs2 : addDocument q.1 a = p at *
      obtain ⟨hc2, hf2, hd2⟩ := heff2
      have hN2 : ∀ x ∈ p.1.docs, x.num < N + 1 := by
        intro x hx
        rcases hd2 x hx with rfl | hx
        · omega
        · have := hN1 x hx; omega
      refine ⟨[a, { d with num := N + 1, cbegin := y.time + 1, cend := none }], ?_, ?_, ?_, .valueError, ?_, rfl⟩
      · intro x hx
        simp only [List.mem_cons, List.not_mem_nil, or_false] at hx
        rcases hx with rfl | rfl
        · exact hwa
        · exact ⟨by simp; omega, by simp⟩
      · simp [ha1]
      · intro x hx
        simp only [List.mem_cons, List.not_mem_nil, or_false] at hx
        rcases hx with rfl | rfl
        · rw [ha1]; exact ⟨hNd, hNs⟩
        · exact ⟨by simp; omega, fun z hz => by have := hNs z hz; simp; omega⟩
      · have hg2 : checkCompat p.1 { d with num := N + 1, cbegin := y.time + 1, cend := none } = .ok g :=
          compat_next hg hcfg2 hag2 hc2.drel (fun y hy => by have := hN2 y hy; simp; omega) rfl rfl rfl rfl
        have := bad_tail (d := { d with num := N + 1, cbegin := y.time + 1, cend := none }) hc2 htl2 rfl rfl
          (fun e he => by have := hXle' e he; simp; omega) (by simp; omega) (by simp)
          (fun e he => by rw [List.mem_singleton] at he; subst he; simp [beginEvent, ha2])
          (by
            have := Alt.nil.snoc (e := beginEvent a) (by simp [beginEvent])
            simpa using this)
          (fun e he => hN2 _ (hev _ hc2 hf2 e he)) hg2
        simp [run, hs1, hs2, this]
    | cons f r' =>
      obtain ⟨hfk, hfd⟩ := alt_second h (A := A) (y := y) (f := f) (r := r') (by rw [htl, hCy]) hk
      have hyf := hry f List.mem_cons_self
      have hr'a : Alt r' := by
        cases r' with
        | nil => exact Alt.nil
        | cons z zs =>
          have hzk := alt_head_two (l := A ++ [y]) (f := f) (g := z) (r := zs)
            (by rw [show (A ++ [y]) ++ f :: z :: zs = s.timeline by rw [htl, hCy]; simp]; exact h.alt) hfk
          have := h.alt
          rw [show s.timeline = (A ++ [y, f]) ++ z :: zs by rw [htl, hCy]; simp] at this
          exact this.suffix hzk
      have hr'f : ∀ x ∈ r', f.time ≤ x.time := fun x hx =>
        ((List.pairwise_cons.mp (List.pairwise_cons.mp hrelC).2).1 x hx).1
      rcases Int.lt_or_le y.time f.time with hlt | hge
      · refine hone f.time ⟨.fin, d, y.time⟩ f r' hlt ?_ rfl hfk (by simp; omega) (Int.le_refl _) hr'f hr'a
        rw [htl1]
        simp only [insertEv]
        rw [if_pos (by simpa using hlt)]
      · have hr't : ∀ x ∈ r', y.time < x.time := by
          cases r' with
          | nil => simp
          | cons z zs =>
            have hzk := alt_head_two (l := A ++ [y]) (f := f) (g := z) (r := zs)
              (by rw [show (A ++ [y]) ++ f :: z :: zs = s.timeline by rw [htl, hCy]; simp]; exact h.alt) hfk
            obtain ⟨z1, z2⟩ := h.core.bgn z (by rw [htl, hCy]; simp) hzk
            obtain ⟨y1, y2⟩ := h.core.bgn y (by rw [htl, hCy]; simp) hk
            have hnd := h.core.nodup
            rw [htl, hCy] at hnd
            have hnd2 := (List.nodup_append.mp hnd).2.1
            have hsort := alt_sorted h.core h.alt
            rw [htl, hCy] at hsort
            have hle := (List.pairwise_cons.mp (List.pairwise_append.mp hsort).2.1).1 z (by simp)
            have hyz : y.time < z.time := by
              have ty : y.time = y.doc.cbegin := by rw [y2]; rfl
              have tz : z.time = z.doc.cbegin := by rw [z2]; rfl
              rcases drel_cases h.core.drel y1 z1 with e' | e' | e'
              · exact absurd (by rw [show y = z by rw [y2, z2, e']]; simp) (List.nodup_cons.mp hnd2).1
              · have := e'.2; omega
              · have := e'.1; omega
            intro x hx
            rcases List.mem_cons.mp hx with rfl | hx
            · exact hyz
            · have := ((List.pairwise_cons.mp (List.pairwise_cons.mp (List.pairwise_cons.mp hrelC).2).2).1 x hx).1
              omega
        refine hone (y.time + 1) f ⟨.fin, d, y.time⟩ r' (by omega) ?_ hfk rfl (by omega) (by simp; omega)
          (fun e he => by have := hr't e he; omega) hr'a
        rw [htl1]
        have : insertEv ⟨.fin, d, y.time⟩ (f :: r') = [f] ++ ⟨.fin, d, y.time⟩ :: r' :=
          insertEv_mid (l := [f]) (r := r') (fun x hx => by rw [List.mem_singleton] at hx; subst hx; simpa using hge)
            (fun x hx => hr't x hx)
        rw [this]
        rfl

end Verif.Seq
