import Verif.Seq.Verbose

/-! A logging sequence does the same as one that does not log, if every document can be written out. -/
namespace Verif.Seq

theorem resolved_gone {s : State} {d : Doc} {t : Int} (h : (d, t) ∈ s.gone) :
    (∃ a, resolvedBegin s d = some a) ∧ ∃ b, resolvedEnd s d = some b := by
  unfold resolvedBegin resolvedEnd
  cases hg : goneEnd s d with
  | some t => exact ⟨⟨_, rfl⟩, ⟨_, rfl⟩⟩
  | none =>
    unfold goneEnd at hg
    rw [Option.map_eq_none_iff, List.find?_eq_none] at hg
    simpa using hg _ h

theorem resolved_held {s : State} {d : Doc} (hd : d ∈ s.docs)
    (hb : ∃ e ∈ s.timeline, e.kind = .bgn ∧ e.doc.num = d.num ∧ d.cbegin ≤ e.time)
    (he : d.cend.isSome → ∃ e ∈ s.timeline, e.kind = .fin ∧ e.doc.num = d.num ∧ d.cbegin ≤ e.time) :
    (∃ a, resolvedBegin s d = some a) ∧ ∃ b, resolvedEnd s d = some b := by
  unfold resolvedBegin resolvedEnd
  cases hg : goneEnd s d with
  | some t => exact ⟨⟨_, rfl⟩, ⟨_, rfl⟩⟩
  | none =>
    simp only
    unfold seqResolvedBegin seqResolvedEnd
    rw [if_pos (by simpa using hd), if_pos (by simpa using hd)]
    constructor
    · cases hl : locateBegin s.timeline d with
      | some e => exact ⟨e.time, rfl⟩
      | none =>
        obtain ⟨e, hm, hk, hn, ht⟩ := hb
        unfold locateBegin at hl
        have := List.find?_eq_none.mp hl e (List.mem_filter.mpr ⟨hm, decide_eq_true ht⟩)
        simp [hn, hk] at this
    · cases hl : locateEnd s.timeline d with
      | some e =>
        simp only
        split
        · exact ⟨_, rfl⟩
        · exact ⟨_, rfl⟩
      | none =>
        simp only
        split
        · rename_i hc
          obtain ⟨e, hm, hk, hn, ht⟩ := he hc
          unfold locateEnd at hl
          have := List.find?_eq_none.mp hl e (List.mem_filter.mpr ⟨hm, decide_eq_true ht⟩)
          simp [hn, hk] at this
        · exact ⟨_, rfl⟩

/-- The document can be written out whatever its resolved times are. -/
def Writable (bodies : Bodies) (d : Doc) : Prop := ∀ rb re e, (Print.content (bodies d) rb re e).isSome = true

theorem logs_none {bodies : Bodies} {s : State} {d : Doc} {e : Option Int} (hp : Writable bodies d)
    (h : (∃ a, resolvedBegin s d = some a) ∧ ∃ b, resolvedEnd s d = some b) : logs bodies s d e = none := by
  obtain ⟨⟨a, ha⟩, b, hb⟩ := h
  unfold logs
  rw [ha, hb]
  simp [hp a b e]

/-- The result of the silent `_insert_or_discard` in the terms of the logging one. -/
def liftIns (s : State) : InsRes → State × VIns
  | .discarded x => (s, .discarded x)
  | .overridden => (s, .overridden)
  | .valueError => (s, .valueError)
  | .typeError => (s, .typeError)
  | .ok docs tl => ({ s with docs := docs, timeline := tl }, .done)

theorem insertOrDiscardV_eq {ex : Prop} {bodies : Bodies} {s : State} {d : Doc} (h : Core ex [d] s.docs s.timeline)
    (hwt : WellTimed d) (hnew : ∀ x ∈ s.docs, x.num ≠ d.num) (hp : ∀ x ∈ s.docs, Writable bodies x)
    (hpd : Writable bodies d) :
    insertOrDiscardV bodies s d = liftIns s (insertOrDiscard s.docs s.timeline d) := by
  unfold insertOrDiscardV insertOrDiscard
  cases hb : scanBack d.num none ((s.timeline.filter (fun x => x.time ≤ d.cbegin)).reverse) with
  | discarded x => rfl
  | inconsistent => rfl
  | ok bb =>
    simp only
    cases hf : scanFwd d bb none (s.timeline.filter (fun x => d.cbegin ≤ x.time)) with
    | inconsistent => rfl
    | overridden => rfl
    | typeError => rfl
    | ok ea tr =>
      simp only
      have hs := scanned h hwt hnew hb hf
      have ht := trimmed h hs
      have hins : insertDocumentV bodies { s with timeline := trimPrev s.timeline bb ea d.cbegin } d (thisEnd d tr) =
          liftIns s (.ok (insertDoc d s.docs)
            (insertOnTimeline (trimPrev s.timeline bb ea d.cbegin) d (thisEnd d tr))) := by
        unfold insertDocumentV
        simp only
        rw [logs_none hpd]
        · rfl
        apply resolved_held
        · exact mem_insertDoc.mpr (.inl rfl)
        · refine ⟨beginEvent d, ?_, rfl, rfl, Int.le_refl _⟩
          simp only [insertOnTimeline]
          cases thisEnd d tr with
          | none => exact mem_insertEv.mpr (.inl rfl)
          | some t => exact mem_insertEv.mpr (.inr (mem_insertEv.mpr (.inl rfl)))
        · intro hc
          obtain ⟨c, hc⟩ := Option.isSome_iff_exists.mp hc
          obtain ⟨t, ht, _⟩ := hs.endLe c (.inl hc)
          refine ⟨⟨.fin, d, t⟩, ?_, rfl, rfl, (hs.endCand t ht).1⟩
          simp only [insertOnTimeline, ht]
          exact mem_insertEv.mpr (.inl rfl)
      cases bb with
      | none => exact hins
      | some p =>
        simp only
        obtain ⟨hpm, hpe, hplt, _, _⟩ := hs.prev p rfl
        rw [logs_none (hp _ hpm)]
        · exact hins
        apply resolved_held (s := { s with timeline := trimPrev s.timeline (some p) ea d.cbegin }) hpm
        · exact ⟨beginEvent p.doc, ht.keepBgn _ (h.hasBgn _ hpm) rfl, rfl, rfl, Int.le_refl _⟩
        · intro _
          obtain ⟨e, he, hk, hn, _⟩ := ht.ended p rfl
          refine ⟨e, he, hk, hn, ?_⟩
          rcases ht.mem e he with hm | ⟨_, _, _, _, htm⟩
          · exact (h.endGe e hm hk p.doc hpm hn.symm).1
          · have := hs.below p.doc hpm hplt
            omega

theorem overrideScan_nodup (b : Int) (n : Nat) : ∀ (tl : List Event) (disc : List Doc), disc.Nodup →
    (overrideScan b n disc tl).2.Nodup := by
  intro tl
  induction tl with
  | nil => intro disc h; simpa [overrideScan] using h
  | cons it rest ih =>
    intro disc h
    simp only [overrideScan]
    split
    · apply ih
      split
      · exact h
      · rename_i hn
        rw [List.nodup_append]
        refine ⟨h, by simp, ?_⟩
        intro a ha b hb
        rw [List.mem_singleton] at hb
        subst hb
        intro hab
        exact hn (hab ▸ ha)
    · exact ih _ h

theorem sublist_eq_filter {l m : List Event} (hs : l.Sublist m) (hm : m.Nodup) :
    l = m.filter (fun e => decide (e ∈ l)) := by
  induction hs with
  | slnil => rfl
  | @cons l m a hs ih =>
    rw [List.nodup_cons] at hm
    have : a ∉ l := fun h => hm.1 (hs.subset h)
    rw [List.filter_cons_of_neg (by simpa using this)]
    exact ih hm.2
  | @cons_cons l m a hs ih =>
    rw [List.nodup_cons] at hm
    rw [List.filter_cons_of_pos (by simp)]
    congr 1
    have h1 := ih hm.2
    have h2 : m.filter (fun e => decide (e ∈ a :: l)) = m.filter (fun e => decide (e ∈ l)) := by
      apply List.filter_congr
      intro e he
      have : e ≠ a := fun h => hm.1 (h ▸ he)
      simp [this]
    rw [h2]
    exact h1

theorem overrideLoopV_eq {bodies : Bodies} {b : Int} {kept : List Event} : ∀ (xs : List Doc) (s : State), xs.Nodup →
    (∀ x ∈ xs, b ≤ x.cbegin ∧ x ∈ s.docs ∧ Writable bodies x) →
    overrideLoopV bodies b kept s xs =
      ({ s with docs := s.docs.filter (fun y => !(xs.contains y))
                timeline := s.timeline.filter (fun e => decide (e.doc ∉ xs ∨ e ∈ kept))
                gone := xs.reverse.map (fun x => (x, b)) ++ s.gone }, none) := by
  intro xs
  induction xs with
  | nil =>
    intro s _ _
    have h1 : s.docs.filter (fun y => !(([] : List Doc).contains y)) = s.docs := List.filter_eq_self.mpr (by simp)
    have h2 : s.timeline.filter (fun e => decide (e.doc ∉ ([] : List Doc) ∨ e ∈ kept)) = s.timeline :=
      List.filter_eq_self.mpr (by simp)
    rw [h1, h2]
    simp [overrideLoopV]
  | cons x xs ih =>
    intro s hn h
    rw [List.nodup_cons] at hn
    obtain ⟨h1, h2, h3⟩ := h x List.mem_cons_self
    unfold overrideLoopV
    rw [if_neg (by simp [h2]; omega)]
    simp only
    rw [logs_none h3 (resolved_gone (t := b) List.mem_cons_self)]
    simp only
    rw [ih _ hn.2]
    · congr 1
      simp only [State.mk.injEq, true_and]
      refine ⟨?_, ?_, ?_⟩
      · rw [List.filter_filter]
        apply List.filter_congr
        intro y _
        by_cases hy : y = x <;> simp [hy]
      · rw [List.filter_filter]
        apply List.filter_congr
        intro e _
        by_cases hy : e.doc = x <;> by_cases hk : e ∈ kept <;> simp [hy, hk]
      · simp
    · intro y hy
      obtain ⟨g1, g2, g3⟩ := h y (List.mem_cons_of_mem _ hy)
      refine ⟨g1, ?_, g3⟩
      have : y ≠ x := fun hxy => hn.1 (hxy ▸ hy)
      simp [g2, this]

theorem overrideSequenceV_eq {ex : Prop} {bodies : Bodies} {s s' : State} {d : Doc} (h : Core ex [] s.docs s.timeline)
    (hp : ∀ x ∈ s.docs, Writable bodies x) (hs' : overrideSequence s d = some s') :
    overrideSequenceV bodies s d = (s', none) := by
  have hiff := overrideScan_iff (d := d) h
  unfold overrideSequenceV
  simp only
  rw [overrideLoopV_eq]
  · unfold overrideSequence at hs'
    simp only at hs'
    split at hs'
    · simp at hs'
    injection hs' with hs'
    rw [← hs']
    congr 1
    simp only [State.mk.injEq, true_and]
    refine ⟨?_, ?_, ?_⟩
    · apply List.filter_congr
      intro y _
      simp
    · have h1 := sublist_eq_filter (overrideScan_sublist d.cbegin d.num s.timeline []) h.nodup
      refine Eq.trans ?_ h1.symm
      apply List.filter_congr
      intro e he
      have := overrideScan_keep d.cbegin d.num s.timeline [] e he
      simp only [List.mem_reverse, decide_eq_decide]
      constructor
      · rintro (g | g)
        · exact this g
        · exact g
      · exact .inr
    · simp
  · exact (List.reverse_perm _).nodup_iff.mpr (overrideScan_nodup _ _ _ _ (by simp))
  · intro x hx
    obtain ⟨g1, g2, _⟩ := (hiff x).mp (List.mem_reverse.mp hx)
    exact ⟨g2, g1, hp x g1⟩

theorem discardNewV_eq {bodies : Bodies} {s : State} {d x : Doc} (hp : Writable bodies d) :
    discardNewV bodies s d x = ((discardNew s d x).1, .quiet (discardNew s d x).2) := by
  unfold discardNewV discardNew
  cases resolvedBegin s x with
  | none => rfl
  | some t =>
    simp only
    by_cases ht : t > d.cbegin
    · rw [if_pos ht, if_pos ht]
    · rw [if_neg ht, if_neg ht]
      rw [logs_none hp (resolved_gone (t := t) List.mem_cons_self)]
      rfl

theorem retryV_eq {ex : Prop} {bodies : Bodies} {s : State} {d : Doc} (h : Core ex [] s.docs s.timeline)
    (hwt : WellTimed d) (hnew : ∀ x ∈ s.docs, x.num ≠ d.num) (hp : ∀ x ∈ s.docs, Writable bodies x)
    (hpd : Writable bodies d) :
    retryV bodies s d = ((retry s d).1, .quiet (retry s d).2) := by
  obtain ⟨s', hs', hc, hdocs, _⟩ := override_core (d := d) h
  unfold retryV retry
  rw [overrideSequenceV_eq h hp hs', hs']
  simp only
  rw [insertOrDiscardV_eq hc hwt (fun x hx => hnew x ((hdocs x).mp hx).1)
    (fun x hx => hp x ((hdocs x).mp hx).1) hpd]
  cases insertOrDiscard s'.docs s'.timeline d <;> rfl

theorem addDocumentV_eq {bodies : Bodies} {s : State} {d : Doc} (h : Weak s) (hwt : WellTimed d)
    (hp : ∀ x ∈ s.docs, Writable bodies x) (hpd : Writable bodies d) :
    addDocumentV bodies s d = ((addDocument s d).1, .quiet (addDocument s d).2) := by
  unfold addDocumentV addDocument
  cases hg : checkCompat s d with
  | error o => rfl
  | ok g =>
    simp only
    have hnew : ∀ x ∈ s.docs, x.num ≠ d.num := by
      intro x hx hn
      have := checkCompat_ok hg
      rw [(existsNum_iff h.core.drel d.num).mpr ⟨x, hx, hn⟩] at this
      simp at this
    rw [insertOrDiscardV_eq (s := { s with agid := g }) (h.core.widen d) hwt hnew hp hpd]
    simp only
    cases insertOrDiscard s.docs s.timeline d with
    | discarded x => simp only [liftIns]; exact discardNewV_eq hpd
    | overridden => simp only [liftIns]; exact retryV_eq (s := { s with agid := g }) h.core hwt hnew hp hpd
    | valueError => rfl
    | typeError => rfl
    | ok docs tl => rfl

theorem addDocument_docs_sub {s : State} {d : Doc} (h : Weak s) (hwt : WellTimed d) :
    ∀ x ∈ (addDocument s d).1.docs, x = d ∨ x ∈ s.docs := by
  intro x hx
  rcases add_effect h.core hwt with ⟨_, hs⟩ | ⟨_, _, hd, _⟩ | ⟨_, hd, _⟩ | ⟨_, hd, _⟩ | ⟨_, _, hd, _⟩
  · rw [hs] at hx; exact .inr hx
  · rcases (hd x).mp hx with h' | h'
    · exact .inl h'
    · exact .inr h'.1
  · rw [hd] at hx; exact .inr hx
  · rw [hd] at hx; exact .inr hx
  · exact .inr ((hd x).mp hx).1

theorem runV_eq {bodies : Bodies} : ∀ (ds : List Doc) {s : State}, Weak s → (∀ d ∈ ds, WellTimed d) →
    (∀ x ∈ s.docs, Writable bodies x) → (∀ d ∈ ds, Writable bodies d) →
    runV bodies s ds = ((run s ds).1, (run s ds).2.map .quiet) := by
  intro ds
  induction ds with
  | nil => intro s _ _ _ _; rfl
  | cons d ds ih =>
    intro s h hw hp hd
    have h1 := addDocumentV_eq h (hw d List.mem_cons_self) hp (hd d List.mem_cons_self)
    have h2 := ih (h.add (hw d List.mem_cons_self)) (fun x hx => hw x (List.mem_cons_of_mem _ hx))
      (fun x hx => by
        rcases addDocument_docs_sub h (hw d List.mem_cons_self) x hx with rfl | g
        · exact hd _ List.mem_cons_self
        · exact hp x g) (fun x hx => hd x (List.mem_cons_of_mem _ hx))
    simp only [runV, run]
    rw [h1]
    simp only
    rw [h2]
    rfl

end Verif.Seq
