import Verif.Seq.InOrder

/-!
C08: documents that arrive late.  Helper lemmas; the property theorems are in
`Verif.Seq.LateProps`.
-/
namespace Verif.Seq

theorem Alt.append {A C : List Event} (hA : Alt A) (hC : Alt C) : Alt (A ++ C) := by
  intro l e r h hk
  rcases List.append_eq_append_iff.mp h with ⟨a', h1, h2⟩ | ⟨c', h1, h2⟩
  · obtain ⟨l', a, g1, g2, g3⟩ := hC a' e r h2 hk
    exact ⟨A ++ l', a, by rw [h1, g1]; simp, g2, g3⟩
  · cases c' with
    | nil =>
      simp only [List.nil_append] at h2
      obtain ⟨l', a, g1, _⟩ := hC [] e r h2.symm hk
      simp at g1
    | cons x xs =>
      simp only [List.cons_append, List.cons.injEq] at h2
      exact hA l e xs (by rw [h1, h2.1]) hk

theorem pairwise_of_split {α : Type} {R : α → α → Prop} : ∀ {l : List α},
    (∀ p b r, l = p ++ b :: r → ∀ a ∈ p, R a b) → l.Pairwise R := by
  intro l
  induction l with
  | nil => intro _; simp
  | cons x xs ih =>
    intro h
    rw [List.pairwise_cons]
    constructor
    · intro b hb
      obtain ⟨p, r, hpr⟩ := List.append_of_mem hb
      exact h (x :: p) b r (by rw [hpr]; rfl) x List.mem_cons_self
    · refine ih ?_
      intro p b r hpr a ha
      exact h (x :: p) b r (by rw [hpr]; rfl) a (List.mem_cons_of_mem _ ha)

/-- On an alternating timeline the events are ordered by sequence number. -/
theorem alt_sorted {ex : Prop} {ext docs : List Doc} {tl : List Event} (h : Core ex ext docs tl)
    (ha : Alt tl) : tl.Pairwise (fun a b => a.doc.num ≤ b.doc.num) := by
  have hbb : ∀ p b r, tl = p ++ b :: r → b.kind = .bgn → ∀ a ∈ p, a.kind = .bgn →
      a.doc.num ≤ b.doc.num := by
    intro p b r hpr hkb a hap hka
    have hrel := h.rel
    rw [hpr] at hrel
    have hle := ((List.pairwise_append.mp hrel).2.2 a hap b List.mem_cons_self).1
    obtain ⟨a1, a2⟩ := h.bgn a (by rw [hpr]; simp [hap]) hka
    obtain ⟨b1, b2⟩ := h.bgn b (by rw [hpr]; simp) hkb
    have ta : a.time = a.doc.cbegin := by rw [a2]; rfl
    have tb : b.time = b.doc.cbegin := by rw [b2]; rfl
    rcases drel_cases h.drel a1 b1 with e | e | e
    · rw [e]; exact Nat.le_refl _
    · exact Nat.le_of_lt e.1
    · have := e.2; omega
  have hab : ∀ p b r, tl = p ++ b :: r → b.kind = .bgn → ∀ a ∈ p, a.doc.num ≤ b.doc.num := by
    intro p b r hpr hkb a hap
    cases hka : a.kind with
    | bgn => exact hbb p b r hpr hkb a hap hka
    | fin =>
      obtain ⟨p1, p2, hp⟩ := List.append_of_mem hap
      obtain ⟨l', z, g1, g2, g3⟩ := ha p1 a (p2 ++ b :: r) (by rw [hpr, hp]; simp) hka
      rw [← g3]
      exact hbb p b r hpr hkb z (by rw [hp, g1]; simp) g2
  refine pairwise_of_split ?_
  intro p b r hpr a hap
  cases hkb : b.kind with
  | bgn => exact hab p b r hpr hkb a hap
  | fin =>
    obtain ⟨l', z, g1, g2, g3⟩ := ha p b r hpr hkb
    rw [g1] at hap
    rw [← g3]
    rcases List.mem_append.mp hap with hm | hm
    · exact hab l' z (b :: r) (by rw [hpr, g1]; simp) g2 a hm
    · rw [List.mem_singleton] at hm; rw [hm]; exact Nat.le_refl _

theorem insertEv_append_left {e : Event} {C : List Event} : ∀ {l : List Event},
    (∀ x ∈ C, e.time < x.time) → insertEv e (l ++ C) = insertEv e l ++ C := by
  intro l
  induction l with
  | nil =>
    intro h
    cases C with
    | nil => rfl
    | cons x xs =>
      simp only [List.nil_append, insertEv]
      rw [if_pos (h x List.mem_cons_self)]
      rfl
  | cons x xs ih =>
    intro h
    simp only [List.cons_append, insertEv]
    split
    · rfl
    · rw [ih h]; rfl

theorem insertEv_append_right {e : Event} {C : List Event} : ∀ {l : List Event},
    (∀ x ∈ l, x.time ≤ e.time) → insertEv e (l ++ C) = l ++ insertEv e C := by
  intro l
  induction l with
  | nil => intro _; rfl
  | cons x xs ih =>
    intro h
    have := h x List.mem_cons_self
    simp only [List.cons_append, insertEv]
    rw [if_neg (by omega), ih (fun y hy => h y (List.mem_cons_of_mem _ hy))]

/-- The forward scan past events of older documents only. -/
theorem scanFwd_append {d : Doc} {bb : Option Event} {C : List Event} : ∀ {S : List Event} {ea : Option Event},
    (∀ e ∈ S, e.doc.num < d.num) →
    scanFwd d bb ea S = .overridden ∧ scanFwd d bb ea (S ++ C) = .overridden ∨
    scanFwd d bb ea S = .inconsistent ∧ scanFwd d bb ea (S ++ C) = .inconsistent ∨
    ∃ ea', scanFwd d bb ea S = .ok ea' none ∧ scanFwd d bb ea (S ++ C) = scanFwd d bb ea' C := by
  intro S
  induction S with
  | nil => intro ea _; exact .inr (.inr ⟨ea, rfl, rfl⟩)
  | cons f r ih =>
    intro ea h
    have hf := h f List.mem_cons_self
    have ih' := fun ea => @ih ea (fun e he => h e (List.mem_cons_of_mem _ he))
    simp only [List.cons_append]
    cases hk : f.kind with
    | bgn =>
      have hstep : ∀ r, scanFwd d bb ea (f :: r) = .overridden := by
        intro r
        unfold scanFwd
        rw [hk]
        simp [hf]
      exact .inl ⟨hstep _, hstep _⟩
    | fin =>
      have hstep : (∀ r, scanFwd d bb ea (f :: r) = .inconsistent) ∨
          ∀ r, scanFwd d bb ea (f :: r) = scanFwd d bb (some f) r := by
        cases bb with
        | none => right; intro r; conv => lhs; unfold scanFwd
                  rw [hk]
        | some p =>
          by_cases hc : f.doc.num ≠ p.doc.num ∧ f.time ≠ p.time
          · left; intro r; unfold scanFwd; rw [hk]; simp only; rw [if_pos hc]
          · right; intro r; conv => lhs; unfold scanFwd
            rw [hk]; simp only; rw [if_neg hc]
      rcases hstep with h' | h'
      · exact .inr (.inl ⟨h' _, h' _⟩)
      · rw [h', h']; exact ih' _

theorem trimPrev_mem {tl : List Event} {bb ea : Option Event} {b : Int} {e : Event}
    (h : e ∈ trimPrev tl bb ea b) : e.time = b ∨ e ∈ tl := by
  unfold trimPrev at h
  split at h
  · exact .inr h
  · split at h
    · rcases mem_insertEv.mp h with h | h
      · left; rw [h]
      · exact .inr (List.mem_of_mem_erase h)
    · rcases mem_insertEv.mp h with h | h
      · left; rw [h]
      · exact .inr h

theorem trimPrev_append {A C : List Event} {bb ea : Option Event} {b : Int}
    (hC : ∀ x ∈ C, b < x.time) (hea : ∀ e, ea = some e → e ∈ A) :
    trimPrev (A ++ C) bb ea b = trimPrev A bb ea b ++ C := by
  unfold trimPrev
  cases bb with
  | none => rfl
  | some p =>
    cases ea with
    | none => exact insertEv_append_left hC
    | some e =>
      simp only
      rw [List.erase_append_left _ (hea e rfl)]
      exact insertEv_append_left hC

/-- One insertion attempt, when the timeline goes on with events of newer documents that begin
later. -/
theorem iod_late {docs : List Doc} {A C : List Event} {d : Doc} {y : Event} {r : List Event}
    (hA : ∀ e ∈ A, e.doc.num < d.num) (hC : C = y :: r) (hyk : y.kind = .bgn) (hyn : d.num < y.doc.num)
    (hCt : ∀ x ∈ C, d.cbegin < x.time) :
    (insertOrDiscard docs A d = .overridden → insertOrDiscard docs (A ++ C) d = .overridden) ∧
    ∀ docs' tl', insertOrDiscard docs A d = .ok docs' tl' →
      ∃ T, (∀ e ∈ T, e.time = d.cbegin ∨ e ∈ A) ∧ tl' = insertOnTimeline T d d.cend ∧
        (d.cend = none → insertOrDiscard docs (A ++ C) d = .typeError) ∧
        ∀ e, d.cend = some e → insertOrDiscard docs (A ++ C) d =
          .ok (insertDoc d docs) (insertOnTimeline (T ++ C) d (some (min e y.time))) := by
  have f1 : (A ++ C).filter (fun x => decide (x.time ≤ d.cbegin)) = A.filter (fun x => decide (x.time ≤ d.cbegin)) := by
    rw [List.filter_append, (List.filter_eq_nil_iff (l := C)).mpr (fun x hx => by have := hCt x hx; simp; omega)]
    simp
  have f2 : (A ++ C).filter (fun x => decide (d.cbegin ≤ x.time)) =
      A.filter (fun x => decide (d.cbegin ≤ x.time)) ++ C := by
    rw [List.filter_append, (List.filter_eq_self (l := C)).mpr (fun x hx => by have := hCt x hx; simp; omega)]
  have hS : ∀ e ∈ A.filter (fun x => decide (d.cbegin ≤ x.time)), e.doc.num < d.num :=
    fun e he => hA e (List.mem_filter.mp he).1
  have hsub : ∀ e ∈ A.filter (fun x => decide (d.cbegin ≤ x.time)), e ∈ A := fun e he => (List.mem_filter.mp he).1
  unfold insertOrDiscard
  rw [f1, f2]
  generalize A.filter (fun x => decide (d.cbegin ≤ x.time)) = S at *
  cases hb : scanBack d.num none ((A.filter (fun x => decide (x.time ≤ d.cbegin))).reverse) with
  | discarded x => simp
  | inconsistent => simp
  | ok bb =>
    simp only
    rcases scanFwd_append (d := d) (bb := bb) (C := C) (ea := none) hS with ⟨h1, h2⟩ | ⟨h1, h2⟩ | ⟨ea, h1, h2⟩
    · rw [h1, h2]; simp
    · rw [h1, h2]; simp
    · rw [h1, h2]
      simp only [reduceCtorEq, false_implies, true_and, InsRes.ok.injEq]
      rintro docs' tl' ⟨_, htl⟩
      have hea : ∀ e, ea = some e → e ∈ A := by
        intro e he
        rw [he] at h1
        rcases scanFwd_ea h1 with h' | ⟨x, hx, hxe, _⟩
        · simp at h'
        · injection hxe with hxe; rw [hxe]; exact hsub _ hx
      refine ⟨trimPrev A bb ea d.cbegin, fun e he => trimPrev_mem he, htl.symm, ?_, ?_⟩
      · intro hn
        rw [hC]
        unfold scanFwd
        rw [hyk]
        simp only
        rw [if_neg (by omega), if_pos hyn, hn]
      · intro e he
        have hs : scanFwd d bb ea C = if e > y.time then .ok ea (some y) else .ok ea none := by
          rw [hC]
          conv => lhs; unfold scanFwd
          rw [hyk]
          simp only
          rw [if_neg (by omega), if_pos hyn, he]
        rw [hs]
        by_cases hgt : e > y.time
        · rw [if_pos hgt]
          simp only [thisEnd]
          rw [trimPrev_append hCt hea, show min e y.time = y.time by omega]
        · rw [if_neg hgt]
          simp only [thisEnd]
          rw [trimPrev_append hCt hea, show min e y.time = e by omega, he]

theorem overrideScan_newer {b : Int} {n : Nat} {C : List Event} : ∀ {A : List Event} {disc : List Doc},
    (∀ e ∈ C, n < e.doc.num) → (overrideScan b n disc (A ++ C)).1 = (overrideScan b n disc A).1 ++ C := by
  intro A
  induction A with
  | nil =>
    intro disc h
    simp only [List.nil_append, overrideScan]
    induction C with
    | nil => rfl
    | cons x xs ih =>
      have := h x List.mem_cons_self
      simp only [overrideScan]
      rw [if_neg (by intro hh; omega)]
      simp only [ih (fun e he => h e (List.mem_cons_of_mem _ he))]
  | cons x xs ih =>
    intro disc h
    simp only [List.cons_append, overrideScan]
    split
    · exact ih h
    · simp only [ih h, List.cons_append]

/-- The timeline of a tidy state, split at a sequence number. -/
theorem tidy_split {s : State} {d : Doc} (h : Tidy s) (hne : ∀ x ∈ s.docs, x.num ≠ d.num) :
    ∃ A C, s.timeline = A ++ C ∧ Alt A ∧ Alt C ∧ (∀ e ∈ A, e.doc.num < d.num) ∧
      (∀ e ∈ C, d.num < e.doc.num) ∧ (C = [] ∨ ∃ y r, C = y :: r ∧ y.kind = .bgn) := by
  have hdoc : ∀ e ∈ s.timeline, e.doc ∈ s.docs := by
    intro e he
    cases hk : e.kind with
    | bgn => exact (h.core.bgn e he hk).1
    | fin => exact h.fin e he hk
  have hsplit := split_filter (p := fun x : Event => decide (x.doc.num < d.num)) (l := s.timeline)
    ((alt_sorted h.core h.alt).imp (by intro x y hh; simp only [decide_eq_true_eq]; omega))
  have h1 : ∀ e ∈ s.timeline.filter (fun x => decide (x.doc.num < d.num)), e.doc.num < d.num := by
    intro e he; simpa using (List.mem_filter.mp he).2
  have h2 : ∀ e ∈ s.timeline.filter (fun x => !decide (x.doc.num < d.num)), d.num < e.doc.num := by
    intro e he
    have hm := List.mem_filter.mp he
    have := hne _ (hdoc e hm.1)
    have h3 := hm.2
    simp at h3; omega
  generalize s.timeline.filter (fun x => decide (x.doc.num < d.num)) = A at *
  generalize s.timeline.filter (fun x => !decide (x.doc.num < d.num)) = C at *
  have ha := h.alt
  rw [hsplit] at ha
  have hhead : C = [] ∨ ∃ y r, C = y :: r ∧ y.kind = .bgn := by
    cases C with
    | nil => exact .inl rfl
    | cons y r =>
      refine .inr ⟨y, r, rfl, ?_⟩
      cases hk : y.kind with
      | bgn => rfl
      | fin =>
        obtain ⟨l', a, g1, g2, g3⟩ := ha A y r rfl hk
        have e1 := h1 a (by rw [g1]; simp)
        have e2 := h2 y List.mem_cons_self
        rw [g3] at e1; omega
  refine ⟨A, C, hsplit, ha.prefix, ?_, h1, h2, hhead⟩
  rcases hhead with h' | ⟨y, r, hC, hk⟩
  · rw [h']; exact Alt.nil
  · rw [hC] at ha ⊢; exact ha.suffix hk

/-- The events of a suffix of newer documents come after the begin of `d`, when those documents
do. -/
theorem tidy_times {s : State} {d : Doc} (h : Tidy s) {t : Int} {C : List Event}
    (hsub : ∀ e ∈ C, e ∈ s.timeline) (hn : ∀ e ∈ C, d.num < e.doc.num)
    (hab : ∀ y ∈ s.docs, d.num < y.num → t < y.cbegin) : ∀ e ∈ C, t < e.time := by
  intro e he
  have hm := hsub e he
  cases hk : e.kind with
  | bgn =>
    obtain ⟨g1, g2⟩ := h.core.bgn e hm hk
    have := hab _ g1 (hn e he)
    have : e.time = e.doc.cbegin := by rw [g2]; rfl
    omega
  | fin =>
    have g1 := h.fin e hm hk
    have := hab _ g1 (hn e he)
    have := (h.core.endGe e hm hk _ g1 rfl).1
    omega

/-- The added document is discarded when a held document with a greater number has begun. -/
theorem tidy_discard {s : State} {d : Doc} (h : Tidy s) {z : Doc} (hz : z ∈ s.docs)
    (hn : d.num < z.num) (hb : z.cbegin ≤ d.cbegin) :
    ∃ x ∈ s.docs, x.cbegin ≤ d.cbegin ∧ insertOrDiscard s.docs s.timeline d = .discarded x := by
  have hP := split_le h.core.rel d.cbegin
  have hzP : beginEvent z ∈ s.timeline.filter (fun x => decide (x.time ≤ d.cbegin)) :=
    List.mem_filter.mpr ⟨h.core.hasBgn z hz, decide_eq_true hb⟩
  have hs3 : ∀ x ∈ s.timeline.filter (fun x => decide (x.time ≤ d.cbegin)), x ∈ s.timeline ∧ x.time ≤ d.cbegin := by
    intro x hx; simpa using List.mem_filter.mp hx
  have hsort := alt_sorted h.core h.alt
  unfold insertOrDiscard
  generalize s.timeline.filter (fun x => decide (x.time ≤ d.cbegin)) = P at *
  rcases snoc_cases P with hnil | ⟨P', w, hw⟩
  · rw [hnil] at hzP; simp at hzP
  · obtain ⟨hwm, hwt⟩ := hs3 w (by rw [hw]; simp)
    have hwn : z.num ≤ w.doc.num := by
      rw [hP, hw] at hsort
      rw [hw] at hzP
      rcases List.mem_append.mp hzP with hm | hm
      · exact ((List.pairwise_append.mp (List.pairwise_append.mp hsort).1).2.2 _ hm w (by simp))
      · rw [List.mem_singleton] at hm; rw [← hm]; exact Nat.le_refl _
    have hwd : w.doc ∈ s.docs ∧ w.doc.cbegin ≤ d.cbegin := by
      cases hk : w.kind with
      | bgn =>
        obtain ⟨g1, g2⟩ := h.core.bgn w hwm hk
        have : w.time = w.doc.cbegin := by rw [g2]; rfl
        exact ⟨g1, by omega⟩
      | fin =>
        have g1 := h.fin w hwm hk
        have := (h.core.endGe w hwm hk _ g1 rfl).1
        exact ⟨g1, by omega⟩
    refine ⟨w.doc, hwd.1, hwd.2, ?_⟩
    rw [hw]
    simp only [List.reverse_append, List.reverse_cons, List.reverse_nil, List.nil_append,
      List.singleton_append]
    unfold scanBack
    rw [if_pos (by omega)]

theorem discardNew_ok {ex : Prop} {s : State} {d x : Doc} (h : Core ex [] s.docs s.timeline)
    (hx : x ∈ s.docs) (hle : x.cbegin ≤ d.cbegin) : (discardNew s d x).2 = .discarded ∧
      (discardNew s d x).1.timeline = s.timeline ∧ (discardNew s d x).1.docs = s.docs := by
  have hb : resolvedBegin s x = some x.cbegin := by
    unfold resolvedBegin
    split
    · rfl
    · exact seqResolvedBegin_eq h hx
  unfold discardNew
  rw [hb]
  simp only
  rw [if_neg (by omega)]
  exact ⟨rfl, rfl, rfl⟩

theorem compat_new {s : State} {d : Doc} {g : Option String} (h : s.docs.Pairwise DRel)
    (hg : checkCompat s d = .ok g) : ∀ x ∈ s.docs, x.num ≠ d.num := by
  intro x hx hn
  have := (existsNum_iff h d.num).mpr ⟨x, hx, hn⟩
  rw [checkCompat_ok hg] at this
  simp at this

/-- Where a late document ends up. -/
theorem late_insert {docs : List Doc} {A C : List Event} {d : Doc} (hwt : WellTimed d)
    (hrel : A.Pairwise Rel) (hA : Alt A) (hC : Alt C) (hAn : ∀ e ∈ A, e.doc.num < d.num)
    (hCn : ∀ e ∈ C, d.num < e.doc.num) (hCh : C = [] ∨ ∃ y r, C = y :: r ∧ y.kind = .bgn)
    (hCt : ∀ x ∈ C, d.cbegin < x.time) (hCe : ∀ x ∈ C, ∃ e, d.cend = some e ∧ e < x.time) :
    insertOrDiscard docs (A ++ C) d = .overridden ∨
    ∃ docs' tl', insertOrDiscard docs (A ++ C) d = .ok docs' tl' ∧ Alt tl' := by
  rcases hCh with hnil | ⟨y, r, hCy, hk⟩
  · rw [hnil, List.append_nil]
    exact newest_insert hrel hA hwt hAn
  · obtain ⟨h1, h2⟩ := iod_late (docs := docs) (C := C) hAn hCy hk (hCn y (by rw [hCy]; simp)) hCt
    rcases newest_insert (docs := docs) hrel hA hwt hAn with hov | ⟨docs', tl', hok, halt⟩
    · exact .inl (h1 hov)
    · obtain ⟨T, _, hT, _, hsome⟩ := h2 docs' tl' hok
      obtain ⟨e, he, hlt⟩ := hCe y (by rw [hCy]; simp)
      refine .inr ⟨_, _, hsome e he, ?_⟩
      rw [show min e y.time = e by omega]
      have : insertOnTimeline (T ++ C) d (some e) = insertOnTimeline T d (some e) ++ C := by
        unfold insertOnTimeline
        simp only
        rw [insertEv_append_left (e := beginEvent d) hCt, insertEv_append_left]
        intro x hx
        obtain ⟨e', he', hlt'⟩ := hCe x hx
        rw [he] at he'; injection he' with he'
        rw [← he'] at hlt'
        exact hlt'
      rw [this]
      rw [he] at hT
      rw [← hT]
      exact halt.append hC

/-- Either a held document with a greater number has begun when `d` begins, or `d` ends strictly
before every held document with a greater number begins. -/
def FitsIn (held : List Doc) (d : Doc) : Prop :=
  (∃ z ∈ held, d.num < z.num ∧ z.cbegin ≤ d.cbegin) ∨
  ∀ y ∈ held, d.num < y.num → ∃ e, d.cend = some e ∧ e < y.cbegin

/-- Adding a document that fits never fails unexpectedly. -/
theorem late_add {s : State} {d : Doc} (h : Tidy s) (hwt : WellTimed d) (hfit : FitsIn s.docs d) :
    (addDocument s d).2.internal = false ∧ Tidy (addDocument s d).1 := by
  have hboth : (addDocument s d).2.internal = false ∧ Alt (addDocument s d).1.timeline := by
    unfold addDocument
    split
    · rename_i o ho
      refine ⟨?_, h.alt⟩
      have := checkCompat_error ho
      simp [Outcome.internal, this]
    rename_i g hg
    simp only
    by_cases hdom : ∃ z ∈ s.docs, d.num < z.num ∧ z.cbegin ≤ d.cbegin
    · obtain ⟨z, hz, h1, h2⟩ := hdom
      obtain ⟨x, hx, hle, hd⟩ := tidy_discard h hz h1 h2
      rw [hd]
      obtain ⟨e1, e2, e3⟩ := discardNew_ok (s := { s with agid := g }) h.core hx hle
      simp only
      rw [e1, e2]
      exact ⟨rfl, h.alt⟩
    have hend := hfit.resolve_left hdom
    have hne := compat_new h.core.drel hg
    have hbeg : ∀ y ∈ s.docs, d.num < y.num → d.cbegin < y.cbegin := by
      intro y hy hn
      rcases Int.lt_or_le d.cbegin y.cbegin with h' | h'
      · exact h'
      · exact absurd ⟨y, hy, hn, h'⟩ hdom
    obtain ⟨A, C, htl, hA, hC, hAn, hCn, hCh⟩ := tidy_split h hne
    have hsubC : ∀ e ∈ C, e ∈ s.timeline := fun e he => by rw [htl]; simp [he]
    have hCt := tidy_times h hsubC hCn hbeg
    have hCe : ∀ x ∈ C, ∃ e, d.cend = some e ∧ e < x.time := by
      intro x hx
      have hxd : x.doc ∈ s.docs := by
        cases hk : x.kind with
        | bgn => exact (h.core.bgn x (hsubC x hx) hk).1
        | fin => exact h.fin x (hsubC x hx) hk
      obtain ⟨e, he, _⟩ := hend _ hxd (hCn x hx)
      refine ⟨e, he, tidy_times h hsubC hCn ?_ x hx⟩
      intro y hy hn
      obtain ⟨e', he', hlt⟩ := hend y hy hn
      rw [he] at he'; injection he' with he'; rw [he']; exact hlt
    have hrelA : A.Pairwise Rel := by
      have := h.core.rel; rw [htl] at this; exact (List.pairwise_append.mp this).1
    rcases late_insert (docs := s.docs) hwt hrelA hA hC hAn hCn hCh hCt hCe with hov | ⟨docs', tl', hok, halt⟩
    · rw [← htl] at hov
      rw [hov]
      simp only
      unfold retry
      obtain ⟨s', hs', hc, hdocs, hsub, hkp, hrm, hcfg, hag, hlast, hgone⟩ :=
        override_core (s := { s with agid := g }) (d := d) h.core
      rw [hs']
      simp only
      have htl' : s'.timeline = (overrideScan d.cbegin d.num [] A).1 ++ C := by
        unfold overrideSequence at hs'
        simp only at hs'
        split at hs'
        · simp at hs'
        · injection hs' with hs'
          rw [← hs']
          simp only
          rw [htl, overrideScan_newer hCn]
      have hss := overrideScan_sublist d.cbegin d.num A []
      have hret := retry_insert (s := { s with agid := g }) h.core hov hs'
      rcases late_insert (docs := s'.docs) hwt (hrelA.sublist hss) (alt_override hrelA hA hAn) hC
          (fun e he => hAn e (hss.subset he)) hCn hCh hCt hCe with hov' | ⟨docs', tl', hok, halt''⟩
      · rw [← htl'] at hov'
        exact absurd hov' (hret d).2
      · rw [← htl'] at hok
        rw [hok]
        exact ⟨rfl, halt''⟩
    · rw [← htl] at hok
      rw [hok]
      exact ⟨rfl, halt⟩
  refine ⟨hboth.1, ?_⟩
  rcases add_effect h.core hwt with ⟨_, hs⟩ | ⟨_, hc, _, _, _, _, _, _, hf⟩ |
    ⟨_, hd, ht, _⟩ | ⟨ho, _⟩ | ⟨ho, _⟩
  · rw [hs]; exact h
  · exact ⟨hc, hf h.fin, hboth.2⟩
  · exact ⟨by rw [hd, ht]; exact h.core, by rw [hd, ht]; exact h.fin, hboth.2⟩
  · rw [hboth.1] at ho; simp at ho
  · have := hboth.1
    rcases ho with ho | ho <;> rw [ho] at this <;> simp [Outcome.internal, Outcome.ok, Outcome.refused] at this

end Verif.Seq
