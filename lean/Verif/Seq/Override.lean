import Verif.Seq.Insert

/-! `_override_sequence`, the discard handler and the invariant over histories. -/
namespace Verif.Seq

/-! ### The override scan -/

theorem overrideScan_sublist (b : Int) (n : Nat) : ∀ (tl : List Event) (disc : List Doc),
    (overrideScan b n disc tl).1.Sublist tl := by
  intro tl
  induction tl with
  | nil => intro disc; simp [overrideScan]
  | cons it rest ih =>
    intro disc
    simp only [overrideScan]
    split
    · exact (ih _).cons _
    · exact (ih _).cons_cons _

theorem overrideScan_disc_mono (b : Int) (n : Nat) : ∀ (tl : List Event) (disc : List Doc) (x : Doc),
    x ∈ disc → x ∈ (overrideScan b n disc tl).2 := by
  intro tl
  induction tl with
  | nil => intro disc x hx; simpa [overrideScan] using hx
  | cons it rest ih =>
    intro disc x hx
    simp only [overrideScan]
    split
    · refine ih _ _ ?_
      split
      · exact hx
      · exact List.mem_append_left _ hx
    · exact ih _ _ hx

theorem overrideScan_disc (b : Int) (n : Nat) : ∀ (tl : List Event) (disc : List Doc) (x : Doc),
    x ∈ (overrideScan b n disc tl).2 → x ∈ disc ∨
      ∃ e ∈ tl, e.doc = x ∧ e.kind = .bgn ∧ b ≤ e.time ∧ e.doc.num < n := by
  intro tl
  induction tl with
  | nil => intro disc x hx; exact .inl (by simpa [overrideScan] using hx)
  | cons it rest ih =>
    intro disc x hx
    simp only [overrideScan] at hx
    split at hx
    · rename_i hc
      rcases ih _ _ hx with h | ⟨e, he, h⟩
      · split at h
        · exact .inl h
        · rename_i hnd
          rcases List.mem_append.mp h with h | h
          · exact .inl h
          · refine .inr ⟨it, List.mem_cons_self, (List.mem_singleton.mp h).symm, ?_, hc.1, hc.2.1⟩
            cases hk : it.kind with
            | bgn => rfl
            | fin => exact absurd ⟨hk, hnd⟩ hc.2.2
      · exact .inr ⟨e, List.mem_cons_of_mem _ he, h⟩
    · rcases ih _ _ hx with h | ⟨e, he, h⟩
      · exact .inl h
      · exact .inr ⟨e, List.mem_cons_of_mem _ he, h⟩

theorem overrideScan_bgn (b : Int) (n : Nat) : ∀ (tl : List Event) (disc : List Doc) (e : Event),
    e ∈ tl → e.kind = .bgn → b ≤ e.time → e.doc.num < n → e.doc ∈ (overrideScan b n disc tl).2 := by
  intro tl
  induction tl with
  | nil => intro disc e he; simp at he
  | cons it rest ih =>
    intro disc e he hk hb hn
    simp only [overrideScan]
    rcases List.mem_cons.mp he with rfl | he
    · rw [if_pos ⟨hb, hn, by simp [hk]⟩]
      refine overrideScan_disc_mono _ _ _ _ _ ?_
      split
      · assumption
      · simp
    · split
      · exact ih _ _ he hk hb hn
      · exact ih _ _ he hk hb hn

/-- An event whose document was not collected stays. -/
theorem overrideScan_keep (b : Int) (n : Nat) : ∀ (tl : List Event) (disc : List Doc) (e : Event),
    e ∈ tl → e.doc ∉ (overrideScan b n disc tl).2 → e ∈ (overrideScan b n disc tl).1 := by
  intro tl
  induction tl with
  | nil => intro disc e he; simp at he
  | cons it rest ih =>
    intro disc e he hn
    simp only [overrideScan] at hn ⊢
    split
    · rename_i hc
      rw [if_pos hc] at hn
      rcases List.mem_cons.mp he with rfl | he
      · refine absurd (overrideScan_disc_mono _ _ _ _ _ ?_) hn
        split
        · assumption
        · simp
      · exact ih _ _ he hn
    · rename_i hc
      rw [if_neg hc] at hn
      rcases List.mem_cons.mp he with rfl | he
      · exact List.mem_cons_self
      · exact List.mem_cons_of_mem _ (ih _ _ he hn)

/-- No event of a collected document stays. -/
theorem overrideScan_removed (b : Int) (n : Nat) : ∀ (tl : List Event) (disc : List Doc),
    tl.Pairwise Rel → (∀ x ∈ disc, x.num < n) → (∀ x ∈ disc, ∀ e ∈ tl, b ≤ e.time) →
    (∀ e ∈ tl, e.kind = .bgn → e.time = e.doc.cbegin) →
    ∀ e ∈ (overrideScan b n disc tl).1, e.doc ∉ (overrideScan b n disc tl).2 := by
  intro tl
  induction tl with
  | nil => intro disc _ _ _ _ e he; simp [overrideScan] at he
  | cons it rest ih =>
    intro disc hrel hd ht hbt e he
    rw [List.pairwise_cons] at hrel
    have hbt' : ∀ e ∈ rest, e.kind = .bgn → e.time = e.doc.cbegin :=
      fun e he => hbt e (List.mem_cons_of_mem _ he)
    simp only [overrideScan] at he ⊢
    split
    · rename_i hc
      rw [if_pos hc] at he
      refine ih _ hrel.2 ?_ ?_ hbt' e he
      · intro x hx
        split at hx
        · exact hd x hx
        · rcases List.mem_append.mp hx with hx | hx
          · exact hd x hx
          · rw [List.mem_singleton] at hx; subst hx; exact hc.2.1
      · intro x _ e he
        have := (hrel.1 e he).1
        have := hc.1
        omega
    · rename_i hc
      rw [if_neg hc] at he
      rcases List.mem_cons.mp he with rfl | he
      · intro hm
        rcases overrideScan_disc _ _ _ _ _ hm with h | ⟨e', he', h1, h2, h3, h4⟩
        · exact hc ⟨ht _ h _ List.mem_cons_self, hd _ h, fun hh => hh.2 h⟩
        · have hr := hrel.1 e' he'
          rw [h1] at h4
          cases hk : e.kind with
          | fin => exact hr.2 ⟨hk, h2, by rw [h1]⟩
          | bgn =>
            have g1 := hbt e List.mem_cons_self hk
            have g2 := hbt' e' he' h2
            rw [h1] at g2
            exact hc ⟨by omega, h4, by simp [hk]⟩
      · exact ih _ hrel.2 hd (fun x hx e he => ht x hx e (List.mem_cons_of_mem _ he)) hbt' e he

/-! ### The override -/

/-- The document is overridden by one with number `n` beginning at `b`. -/
def Overridden (d x : Doc) : Prop := d.cbegin ≤ x.cbegin ∧ x.num < d.num

theorem overrideScan_iff {ex : Prop} {docs : List Doc} {tl : List Event} {d : Doc}
    (h : Core ex [] docs tl) (x : Doc) :
    x ∈ (overrideScan d.cbegin d.num [] tl).2 ↔ x ∈ docs ∧ Overridden d x := by
  constructor
  · intro hx
    rcases overrideScan_disc _ _ _ _ _ hx with h' | ⟨e, he, h1, h2, h3, h4⟩
    · simp at h'
    · obtain ⟨g1, g2⟩ := h.bgn e he h2
      have : e.time = e.doc.cbegin := by rw [g2]; rfl
      subst h1
      exact ⟨g1, by omega, h4⟩
  · rintro ⟨hx, h1, h2⟩
    exact overrideScan_bgn _ _ _ _ _ (h.hasBgn x hx) rfl h1 h2

theorem override_core {ex : Prop} {s : State} {d : Doc} (h : Core ex [] s.docs s.timeline) :
    ∃ s', overrideSequence s d = some s' ∧ Core ex [d] s'.docs s'.timeline ∧
      (∀ x, x ∈ s'.docs ↔ x ∈ s.docs ∧ ¬ Overridden d x) ∧
      (∀ e, e ∈ s'.timeline → e ∈ s.timeline) ∧
      (∀ e ∈ s.timeline, e.doc ∈ s.docs → ¬ Overridden d e.doc → e ∈ s'.timeline) ∧
      (∀ e ∈ s'.timeline, ¬ (e.doc ∈ s.docs ∧ Overridden d e.doc)) ∧
      s'.cfg = s.cfg ∧ s'.agid = s.agid ∧ s'.lastNum = s.lastNum ∧
      ∃ l, s'.gone = l ++ s.gone ∧
        ∀ p, p ∈ l ↔ p.1 ∈ s.docs ∧ Overridden d p.1 ∧ p.2 = d.cbegin := by
  have hiff := overrideScan_iff (d := d) h
  have hbt : ∀ e ∈ s.timeline, e.kind = .bgn → e.time = e.doc.cbegin := by
    intro e he hk
    have := (h.bgn e he hk).2
    rw [this]; rfl
  have hrem := overrideScan_removed d.cbegin d.num s.timeline [] h.rel (by simp) (by simp) hbt
  have hkeep := overrideScan_keep d.cbegin d.num s.timeline []
  have hsub := overrideScan_sublist d.cbegin d.num s.timeline []
  unfold overrideSequence
  generalize overrideScan d.cbegin d.num [] s.timeline = r at *
  have hany : (r.2.any fun x => decide (d.cbegin > x.cbegin) || !(s.docs.contains x)) = false := by
    rw [List.any_eq_false]
    intro x hx
    obtain ⟨h1, h2, _⟩ := (hiff x).mp hx
    simp [h1]; omega
  simp only [hany, Bool.false_eq_true, if_false]
  have hdocs : ∀ x, x ∈ s.docs.filter (fun x => !(r.2.contains x)) ↔ x ∈ s.docs ∧ ¬ Overridden d x := by
    intro x
    simp only [List.mem_filter, Bool.not_eq_true', List.contains_eq_mem, decide_eq_false_iff_not]
    rw [hiff]
    constructor
    · rintro ⟨h1, h2⟩; exact ⟨h1, fun h3 => h2 ⟨h1, h3⟩⟩
    · rintro ⟨h1, h2⟩; exact ⟨h1, fun h3 => h2 h3.2⟩
  refine ⟨_, rfl, ?_, hdocs, fun e he => hsub.subset he, ?_, ?_, rfl, rfl, rfl, _, rfl, ?_⟩
  · refine ⟨h.rel.sublist hsub, h.nodup.sublist hsub, h.drel.sublist List.filter_sublist, ?_, ?_, ?_, ?_, ?_, ?_,
      fun e he => h.pos e (hsub.subset he)⟩
    · intro x hx; exact h.wt x ((hdocs x).mp hx).1
    · intro e he hk
      obtain ⟨g1, g2⟩ := h.bgn e (hsub.subset he) hk
      refine ⟨(hdocs _).mpr ⟨g1, fun ho => hrem e he ((hiff _).mpr ⟨g1, ho⟩)⟩, g2⟩
    · intro x hx
      refine hkeep _ (h.hasBgn x ((hdocs x).mp hx).1) ?_
      intro hm
      exact ((hdocs x).mp hx).2 ((hiff x).mp hm).2
    · intro x hx t ht
      have hx' := (hdocs x).mp hx
      have ht' : Cand s.docs x t := by
        rcases ht with ht | ⟨y, hy, h1, h2⟩
        · exact .inl ht
        · exact .inr ⟨y, ((hdocs y).mp hy).1, h1, h2⟩
      obtain ⟨e, he, hk, hn, hle⟩ := h.hasEnd x hx'.1 t ht'
      refine ⟨e, hkeep e he ?_, hk, hn, hle⟩
      intro hm
      obtain ⟨g1, g2⟩ := (hiff _).mp hm
      have : e.doc = x := drel_eq h.drel g1 hx'.1 hn
      rw [this] at g2
      exact hx'.2 g2
    · intro e he hk x hx hn
      have hx' := (hdocs x).mp hx
      obtain ⟨g1, g2⟩ := h.endGe e (hsub.subset he) hk x hx'.1 hn
      refine ⟨g1, fun hex => ?_⟩
      obtain ⟨t, ht, hle⟩ := g2 hex
      rcases ht with ht | ⟨y, hy, h1, h2⟩
      · exact ⟨t, .inl ht, hle⟩
      · rw [List.nil_append] at hy
        by_cases ho : Overridden d y
        · have := ho.1; have := ho.2
          exact ⟨d.cbegin, .inr ⟨d, List.mem_append_left _ (by simp), by omega, rfl⟩, by omega⟩
        · exact ⟨t, .inr ⟨y, List.mem_append_right _ ((hdocs y).mpr ⟨hy, ho⟩), h1, h2⟩, hle⟩
    · intro e he hk
      rcases h.orph e (hsub.subset he) hk with ⟨x, hx, hn, hor⟩ | ⟨D, hD, h1, h2⟩
      · by_cases ho : Overridden d x
        · rcases hor with hor | hor
          · exact absurd ((hiff _).mpr ⟨hor ▸ hx, hor ▸ ho⟩) (hrem e he)
          · have := ho.1; have := ho.2
            exact .inr ⟨d, List.mem_append_left _ (by simp), by omega, by omega⟩
        · exact .inl ⟨x, (hdocs x).mpr ⟨hx, ho⟩, hn, hor⟩
      · rw [List.nil_append] at hD
        by_cases ho : Overridden d D
        · have := ho.1; have := ho.2
          exact .inr ⟨d, List.mem_append_left _ (by simp), by omega, by omega⟩
        · exact .inr ⟨D, List.mem_append_right _ ((hdocs D).mpr ⟨hD, ho⟩), h1, h2⟩
  · intro e he hed ho
    exact hkeep e he (fun hm => ho ((hiff _).mp hm).2)
  · intro e he ho
    exact hrem e he ((hiff _).mpr ho)
  · intro p
    simp only [List.mem_map]
    constructor
    · rintro ⟨x, hx, rfl⟩
      have := (hiff x).mp hx
      exact ⟨this.1, this.2, rfl⟩
    · rintro ⟨h1, h2, h3⟩
      exact ⟨p.1, (hiff _).mpr ⟨h1, h2⟩, by rw [← h3]⟩

/-! ### Discarding -/

/-- A successful backward scan: every later-numbered held document begins later. -/
theorem back_above {ex : Prop} {ext docs : List Doc} {tl : List Event} {d : Doc} {bb : Option Event}
    (h : Core ex ext docs tl)
    (hb : scanBack d.num none ((tl.filter (fun x => x.time ≤ d.cbegin)).reverse) = .ok bb) :
    ∀ y ∈ docs, d.num < y.num → d.cbegin < y.cbegin := by
  intro y hy hlt
  rcases Int.lt_or_le d.cbegin y.cbegin with h' | h'
  · exact h'
  exfalso
  have hym : beginEvent y ∈ (tl.filter (fun x => decide (x.time ≤ d.cbegin))).reverse :=
    List.mem_reverse.mpr (List.mem_filter.mpr ⟨h.hasBgn y hy, decide_eq_true h'⟩)
  have hBrel : (tl.filter (fun x => decide (x.time ≤ d.cbegin))).Pairwise Rel := h.rel.filter _
  rcases scanBack_ok hb with ⟨hall, _⟩ | ⟨pre, p, post, hR, hpre, hpk, hpn, _⟩
  · have := (hall _ hym).1; simp [beginEvent] at this
  · have hpF : p ∈ tl.filter (fun x => decide (x.time ≤ d.cbegin)) := by
      apply List.mem_reverse.mp; rw [hR]; simp
    have hpb := h.bgn p (List.mem_filter.mp hpF).1 hpk
    have hpt : p.time = p.doc.cbegin := by rw [hpb.2]; rfl
    have hRrev : (tl.filter (fun x => decide (x.time ≤ d.cbegin))) = post.reverse ++ p :: pre.reverse := by
      have := congrArg List.reverse hR
      simpa using this
    have hrelp : (post.reverse ++ p :: pre.reverse).Pairwise Rel := hRrev ▸ hBrel
    have hle : y.cbegin ≤ p.doc.cbegin := by
      rw [hR] at hym
      rcases List.mem_append.mp hym with hm | hm
      · have := (hpre _ hm).1; simp [beginEvent] at this
      · rcases List.mem_cons.mp hm with hm | hm
        · rw [← hm]; simp [beginEvent]
        · have := (List.pairwise_append.mp hrelp).2.2 _ (List.mem_reverse.mpr hm) p List.mem_cons_self
          have := this.1
          simp [beginEvent] at this; omega
    rcases drel_cases h.drel hy hpb.1 with heq | hr | hr
    · rw [heq] at hlt; omega
    · have := hr.1; omega
    · have := hr.2; omega

/-- An event with a greater number up to the begin of `d`: some held document dominates `d`. -/
theorem dominated {ex : Prop} {docs : List Doc} {tl : List Event} {d : Doc}
    (h : Core ex [d] docs tl) {e : Event} (he : e ∈ tl) (ht : e.time ≤ d.cbegin)
    (hn : d.num < e.doc.num) : ∃ D ∈ docs, d.num < D.num ∧ D.cbegin ≤ d.cbegin := by
  cases hk : e.kind with
  | bgn =>
    obtain ⟨g1, g2⟩ := h.bgn e he hk
    have : e.time = e.doc.cbegin := by rw [g2]; rfl
    exact ⟨e.doc, g1, hn, by omega⟩
  | fin =>
    rcases h.orph e he hk with ⟨x, hx, hxn, _⟩ | ⟨D, hD, h1, h2⟩
    · have := (h.endGe e he hk x hx hxn).1
      exact ⟨x, hx, by omega, by omega⟩
    · rcases List.mem_append.mp hD with hD | hD
      · rw [List.mem_singleton] at hD; subst hD; omega
      · exact ⟨D, hD, by omega, by omega⟩

theorem scanFwd_overridden {d : Doc} {bb : Option Event} {L : List Event} : ∀ {ea : Option Event},
    scanFwd d bb ea L = .overridden → ∃ it ∈ L, it.kind = .bgn ∧ it.doc.num < d.num := by
  induction L with
  | nil => intro ea h; simp [scanFwd] at h
  | cons it rest ih =>
    intro ea h
    have key : ∀ {ea}, scanFwd d bb ea rest = .overridden →
        ∃ i ∈ it :: rest, i.kind = .bgn ∧ i.doc.num < d.num := by
      intro ea h
      obtain ⟨i, hi, h'⟩ := ih h
      exact ⟨i, List.mem_cons_of_mem _ hi, h'⟩
    unfold scanFwd at h
    split at h
    · split at h
      · split at h
        · simp at h
        · exact key h
      · exact key h
    · rename_i hk
      split at h
      · rename_i hlt
        exact ⟨it, List.mem_cons_self, hk, hlt⟩
      split at h
      · split at h
        · simp at h
        · split at h <;> simp at h
      · exact key h

theorem insertOrDiscard_overridden {docs : List Doc} {tl : List Event} {d : Doc}
    (h : insertOrDiscard docs tl d = .overridden) :
    (∃ bb, scanBack d.num none ((tl.filter (fun x => x.time ≤ d.cbegin)).reverse) = .ok bb) ∧
    ∃ it ∈ tl, it.kind = .bgn ∧ it.doc.num < d.num ∧ d.cbegin ≤ it.time := by
  unfold insertOrDiscard at h
  split at h
  · simp at h
  · simp at h
  rename_i bb hb
  split at h
  · simp at h
  · rename_i hf
    refine ⟨⟨bb, hb⟩, ?_⟩
    obtain ⟨it, hit, h1, h2⟩ := scanFwd_overridden hf
    have := List.mem_filter.mp hit
    exact ⟨it, this.1, h1, h2, by simpa using this.2⟩
  · simp at h
  · simp at h

theorem insertOrDiscard_discarded {docs : List Doc} {tl : List Event} {d x : Doc}
    (h : insertOrDiscard docs tl d = .discarded x) :
    ∃ e ∈ tl, e.time ≤ d.cbegin ∧ e.doc = x ∧ d.num < x.num := by
  unfold insertOrDiscard at h
  split at h
  · rename_i y hb
    injection h with h
    subst h
    obtain ⟨e, he, h1, h2⟩ := scanBack_discarded hb
    have := List.mem_filter.mp (List.mem_reverse.mp he)
    exact ⟨e, this.1, by simpa using this.2, h1, h2⟩
  · simp at h
  · split at h <;> simp at h

/-- The retry after an override cannot be discarded or overridden again. -/
theorem retry_insert {ex : Prop} {s s' : State} {d : Doc} (h : Core ex [] s.docs s.timeline)
    (hfirst : insertOrDiscard s.docs s.timeline d = .overridden)
    (hs' : overrideSequence s d = some s') (x : Doc) :
    insertOrDiscard s'.docs s'.timeline d ≠ .discarded x ∧
    insertOrDiscard s'.docs s'.timeline d ≠ .overridden := by
  obtain ⟨s'', hs'', hc, hdocs, hsub, hkp, hrm, _⟩ := override_core (d := d) h
  rw [hs'] at hs''; injection hs'' with hs''; subst hs''
  obtain ⟨⟨bb, hb⟩, _⟩ := insertOrDiscard_overridden hfirst
  have hab := back_above h hb
  constructor
  · intro hd
    obtain ⟨e, he, ht, hx, hn⟩ := insertOrDiscard_discarded hd
    obtain ⟨D, hD, h1, h2⟩ := dominated hc he ht (by rw [hx]; exact hn)
    have := hab D ((hdocs D).mp hD).1 h1
    omega
  · intro ho
    obtain ⟨_, it, hit, hk, hn, hle⟩ := insertOrDiscard_overridden ho
    obtain ⟨g1, g2⟩ := hc.bgn it hit hk
    have : it.time = it.doc.cbegin := by rw [g2]; rfl
    exact ((hdocs _).mp g1).2 ⟨by omega, hn⟩

/-! ### Ends belong to held documents (histories of additions only) -/

/-- Every end event belongs to a held document. -/
def FinIn (docs : List Doc) (tl : List Event) : Prop := ∀ e ∈ tl, e.kind = .fin → e.doc ∈ docs

theorem finIn_override {ex : Prop} {s s' : State} {d : Doc} (h : Core ex [] s.docs s.timeline)
    (hf : FinIn s.docs s.timeline) (hs' : overrideSequence s d = some s') :
    FinIn s'.docs s'.timeline := by
  obtain ⟨s'', hs'', _, hdocs, hsub, _, hrm, _⟩ := override_core (d := d) h
  rw [hs'] at hs''; injection hs'' with hs''; subst hs''
  intro e he hk
  have := hf e (hsub e he) hk
  exact (hdocs _).mpr ⟨this, fun ho => hrm e he ⟨this, ho⟩⟩

theorem finIn_core {ex : Prop} {ext docs : List Doc} {tl : List Event} (h : Core ex ext docs tl)
    (hf : FinIn docs tl) : Core False [] docs tl := by
  refine ⟨h.rel, h.nodup, h.drel, h.wt, h.bgn, h.hasBgn, h.hasEnd, ?_, ?_, h.pos⟩
  · intro e he hk x hx hn
    exact ⟨(h.endGe e he hk x hx hn).1, False.elim⟩
  · intro e he hk
    exact .inl ⟨e.doc, hf e he hk, rfl, .inl rfl⟩

theorem scanFwd_ea {d : Doc} {bb : Option Event} {L : List Event} : ∀ {ea0 ea tr : Option Event},
    scanFwd d bb ea0 L = .ok ea tr → ea = ea0 ∨ ∃ e ∈ L, ea = some e ∧ e.kind = .fin := by
  induction L with
  | nil => intro ea0 ea tr h; simp [scanFwd] at h; exact .inl h.1.symm
  | cons it rest ih =>
    intro ea0 ea tr h
    unfold scanFwd at h
    split at h
    · rename_i hk
      have key : scanFwd d bb (some it) rest = .ok ea tr →
          ea = ea0 ∨ ∃ e ∈ it :: rest, ea = some e ∧ e.kind = .fin := by
        intro h
        rcases ih h with h' | ⟨e, he, h'⟩
        · exact .inr ⟨it, List.mem_cons_self, h', hk⟩
        · exact .inr ⟨e, List.mem_cons_of_mem _ he, h'⟩
      split at h
      · split at h
        · simp at h
        · exact key h
      · exact key h
    · split at h
      · simp at h
      split at h
      · split at h
        · simp at h
        · split at h <;> (injection h with h _; exact .inl h.symm)
      · rcases ih h with h' | ⟨e, he, h'⟩
        · exact .inl h'
        · exact .inr ⟨e, List.mem_cons_of_mem _ he, h'⟩

theorem scanBack_mem {n : Nat} {L : List Event} {bb : Option Event}
    (h : scanBack n none L = .ok bb) : ∀ p, bb = some p → p ∈ L ∧ p.kind = .bgn := by
  intro p hp
  rcases scanBack_ok h with ⟨_, hb⟩ | ⟨pre, q, post, hL, _, hk, _, ⟨hb, _⟩ | ⟨hb, _⟩⟩
  · rw [hb] at hp; simp at hp
  · rw [hb] at hp; injection hp with hp; subst hp
    exact ⟨by rw [hL]; simp, hk⟩
  · rw [hb] at hp; simp at hp

theorem finIn_insert {ex : Prop} {ext docs : List Doc} {tl : List Event} {d : Doc} {docs' : List Doc}
    {tl' : List Event} (h : Core ex ext docs tl) (hf : FinIn docs tl)
    (hok : insertOrDiscard docs tl d = .ok docs' tl') : FinIn docs' tl' := by
  unfold insertOrDiscard at hok
  split at hok
  · simp at hok
  · simp at hok
  rename_i bb hb
  split at hok
  · simp at hok
  · simp at hok
  · simp at hok
  rename_i ea tr hfw
  injection hok with hdocs htl
  subst hdocs
  have hT : FinIn docs (trimPrev tl bb ea d.cbegin) := by
    intro e he hk
    unfold trimPrev at he
    split at he
    · exact hf e he hk
    · rename_i p
      split at he
      · rename_i m
        rcases mem_insertEv.mp he with rfl | he
        · rcases scanFwd_ea hfw with h' | ⟨m', hm', h', hk'⟩
          · simp at h'
          · injection h' with h'; subst h'
            exact hf m (List.mem_filter.mp hm').1 hk'
        · exact hf e (List.mem_of_mem_erase he) hk
      · rcases mem_insertEv.mp he with rfl | he
        · obtain ⟨g1, g2⟩ := scanBack_mem hb p rfl
          exact (h.bgn p (List.mem_filter.mp (List.mem_reverse.mp g1)).1 g2).1
        · exact hf e he hk
  intro e he hk
  rw [← htl] at he
  unfold insertOnTimeline at he
  split at he
  · rcases mem_insertEv.mp he with rfl | he
    · exact mem_insertDoc.mpr (.inl rfl)
    · rcases mem_insertEv.mp he with rfl | he
      · simp [beginEvent] at hk
      · exact mem_insertDoc.mpr (.inr (hT e he hk))
  · rcases mem_insertEv.mp he with rfl | he
    · simp [beginEvent] at hk
    · exact mem_insertDoc.mpr (.inr (hT e he hk))

end Verif.Seq
