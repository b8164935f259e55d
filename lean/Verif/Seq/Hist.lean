import Verif.Seq.Override

/-! What one `add_document` call does, and invariants over histories. -/
namespace Verif.Seq

theorem checkCompat_error {s : State} {d : Doc} {o : Outcome} (h : checkCompat s d = .error o) :
    o.refused = true := by
  unfold checkCompat at h
  repeat' split at h
  all_goals first
    | (injection h with h; subst h; rfl)
    | (exact absurd h (by simp))

theorem checkCompat_ok {s : State} {d : Doc} {g : Option String} (h : checkCompat s d = .ok g) :
    existsNum s.docs d.num = false := by
  unfold checkCompat at h
  split at h
  · simp at h
  split at h
  · simp at h
  split at h
  · simp at h
  · rename_i hh; simpa using hh

/-- A held document with a greater number that begins no later. -/
def Dominated (docs : List Doc) (d : Doc) : Prop :=
  ∃ D ∈ docs, d.num < D.num ∧ D.cbegin ≤ d.cbegin

/-- Effect of one call, by kind of outcome. -/
inductive AddEffect (ex : Prop) (s : State) (d : Doc) (r : State × Outcome) : Prop
  | refused (ho : r.2.refused = true) (hs : r.1 = s)
  | inserted (ho : r.2 = .inserted) (hc : Core ex [] r.1.docs r.1.timeline)
      (hdocs : ∀ x, x ∈ r.1.docs ↔ x = d ∨ x ∈ s.docs ∧ ¬ Overridden d x)
      (hnum : ∀ x ∈ s.docs, x.num ≠ d.num)
      (habove : ∀ y ∈ s.docs, d.num < y.num → d.cbegin < y.cbegin)
      (hgone : ∃ l, r.1.gone = l ++ s.gone ∧
        ∀ p, p ∈ l ↔ p.1 ∈ s.docs ∧ Overridden d p.1 ∧ p.2 = d.cbegin)
      (hlast : r.1.lastNum = max s.lastNum d.num) (hcfg : r.1.cfg = s.cfg)
      (hfin : FinIn s.docs s.timeline → FinIn r.1.docs r.1.timeline)
  | discarded (ho : r.2 = .discarded) (hdocs : r.1.docs = s.docs)
      (htl : r.1.timeline = s.timeline) (hnum : ∀ x ∈ s.docs, x.num ≠ d.num)
      (hdom : Dominated s.docs d) (hgone : ∃ t, t ≤ d.cbegin ∧ r.1.gone = (d, t) :: s.gone)
      (hlast : r.1.lastNum = max s.lastNum d.num) (hcfg : r.1.cfg = s.cfg)
  | internalSame (ho : r.2.internal = true) (hdocs : r.1.docs = s.docs)
      (htl : r.1.timeline = s.timeline) (hgone : r.1.gone = s.gone)
      (hlast : r.1.lastNum = s.lastNum) (hcfg : r.1.cfg = s.cfg)
  | internalOverride (ho : r.2 = .valueError ∨ r.2 = .typeError)
      (hc : Core ex [d] r.1.docs r.1.timeline)
      (hdocs : ∀ x, x ∈ r.1.docs ↔ x ∈ s.docs ∧ ¬ Overridden d x)
      (hgone : ∃ l, r.1.gone = l ++ s.gone ∧
        ∀ p, p ∈ l ↔ p.1 ∈ s.docs ∧ Overridden d p.1 ∧ p.2 = d.cbegin)
      (hlast : r.1.lastNum = s.lastNum) (hcfg : r.1.cfg = s.cfg)
      (hfin : FinIn s.docs s.timeline → FinIn r.1.docs r.1.timeline)

theorem add_effect {ex : Prop} {s : State} {d : Doc} (h : Core ex [] s.docs s.timeline)
    (hwt : WellTimed d) : AddEffect ex s d (addDocument s d) := by
  unfold addDocument
  split
  · rename_i o ho
    exact .refused (checkCompat_error ho) rfl
  rename_i g hg
  have hnew : ∀ x ∈ s.docs, x.num ≠ d.num := by
    intro x hx hn
    have := (existsNum_iff h.drel d.num).mpr ⟨x, hx, hn⟩
    rw [checkCompat_ok hg] at this
    simp at this
  simp only
  split
  · rename_i docs' tl' hok
    obtain ⟨hc, hd, hab, hbl⟩ := insert_core (h.widen d) hwt hnew hok
    have hno : ∀ x ∈ s.docs, ¬ Overridden d x := by
      intro x hx ho
      have := hbl x hx ho.2
      have := ho.1
      omega
    refine .inserted rfl hc ?_ hnew hab ⟨[], rfl, ?_⟩ rfl rfl (fun hf => finIn_insert (h.widen d) hf hok)
    · intro x
      simp only [inserted]
      rw [hd, mem_insertDoc]
      constructor
      · rintro (h' | h')
        · exact .inl h'
        · exact .inr ⟨h', hno x h'⟩
      · rintro (h' | h')
        · exact .inl h'
        · exact .inr h'.1
    · intro p
      constructor
      · simp
      · rintro ⟨h1, h2, _⟩; exact absurd h2 (hno _ h1)
  · rename_i x hx
    obtain ⟨e, he, ht, hex, hn⟩ := insertOrDiscard_discarded hx
    have hdom := dominated (h.widen d) he ht (by rw [hex]; exact hn)
    unfold discardNew
    split
    · exact .internalSame rfl rfl rfl rfl rfl rfl
    · split
      · exact .internalSame rfl rfl rfl rfl rfl rfl
      · rename_i t _ hle
        exact .discarded rfl rfl rfl hnew hdom ⟨t, by omega, rfl⟩ rfl rfl
  · rename_i hov
    obtain ⟨s', hs', hc, hdocs, hsub, hkp, hrm, hcfg, hag, hlast, hgone⟩ :=
      override_core (s := { s with agid := g }) (d := d) h
    have hfin' : FinIn s.docs s.timeline → FinIn s'.docs s'.timeline :=
      fun hf => finIn_override (s := { s with agid := g }) h hf hs'
    obtain ⟨⟨bb, hb⟩, _⟩ := insertOrDiscard_overridden hov
    unfold retry
    rw [hs']
    simp only
    split
    · rename_i docs' tl' hok
      obtain ⟨hc', hd, hab, hbl⟩ := insert_core hc hwt (fun x hx => hnew x ((hdocs x).mp hx).1) hok
      refine .inserted rfl hc' ?_ hnew (back_above h hb) hgone ?_ hcfg
        (fun hf => finIn_insert hc (hfin' hf) hok)
      · intro x
        simp only [inserted]
        rw [hd, mem_insertDoc, hdocs]
      · simp only [inserted]; rw [hlast]
    · rename_i x hx
      exact absurd hx (retry_insert (s := { s with agid := g }) h hov hs' x).1
    · rename_i hx
      exact absurd hx (retry_insert (s := { s with agid := g }) h hov hs' d).2
    · exact .internalOverride (.inl rfl) hc hdocs hgone hlast hcfg hfin'
    · exact .internalOverride (.inr rfl) hc hdocs hgone hlast hcfg hfin'
  · exact .internalSame rfl rfl rfl rfl rfl rfl
  · exact .internalSame rfl rfl rfl rfl rfl rfl

/-! ### Resolved times under the invariant -/

section Resolved
variable {ex : Prop} {ext docs : List Doc} {tl : List Event}

theorem locateBegin_eq (h : Core ex ext docs tl) {x : Doc} (hx : x ∈ docs) :
    locateBegin tl x = some (beginEvent x) := by
  unfold locateBegin
  have hm : beginEvent x ∈ tl.filter (fun y => decide (x.cbegin ≤ y.time)) :=
    List.mem_filter.mpr ⟨h.hasBgn x hx, decide_eq_true (Int.le_refl _)⟩
  cases hf : (tl.filter (fun y => decide (x.cbegin ≤ y.time))).find?
      (fun y => y.doc.num == x.num && y.kind == .bgn) with
  | none =>
    have := List.find?_eq_none.mp hf _ hm
    simp [beginEvent] at this
  | some e =>
    have h1 := List.find?_some hf
    have h2 := List.mem_of_find?_eq_some hf
    simp at h1
    obtain ⟨g1, g2⟩ := h.bgn e (List.mem_filter.mp h2).1 h1.2
    have : e.doc = x := drel_eq h.drel g1 hx h1.1
    rw [g2, this]

theorem find?_first {α : Type} {R : α → α → Prop} (hr : ∀ a, R a a) {p : α → Bool} {l : List α}
    (hp : l.Pairwise R) {e : α} (hf : l.find? p = some e) : ∀ x ∈ l, p x = true → R e x := by
  induction l with
  | nil => simp at hf
  | cons y ys ih =>
    rw [List.pairwise_cons] at hp
    intro x hx hpx
    by_cases hy : p y = true
    · rw [List.find?_cons_of_pos hy] at hf
      injection hf with hf; subst hf
      rcases List.mem_cons.mp hx with rfl | hx
      · exact hr _
      · exact hp.1 x hx
    · rw [List.find?_cons_of_neg hy] at hf
      rcases List.mem_cons.mp hx with rfl | hx
      · exact absurd hpx hy
      · exact ih hp.2 hf x hx hpx

/-- `locate_element_end` finds the earliest end event of the document. -/
theorem locateEnd_some (h : Core ex ext docs tl) {x : Doc} (hx : x ∈ docs) {e : Event}
    (he : locateEnd tl x = some e) : e ∈ tl ∧ e.kind = .fin ∧ e.doc.num = x.num ∧
      ∀ e' ∈ tl, e'.kind = .fin → e'.doc.num = x.num → e.time ≤ e'.time := by
  unfold locateEnd at he
  have h1 := List.find?_some he
  have h2 := List.mem_filter.mp (List.mem_of_find?_eq_some he)
  simp at h1
  refine ⟨h2.1, h1.2, h1.1, ?_⟩
  intro e' he' hk hn
  have hle := (h.endGe e' he' hk x hx hn.symm).1
  have hrel : (tl.filter (fun y => decide (x.cbegin ≤ y.time))).Pairwise (fun a b => a.time ≤ b.time) :=
    (h.rel.imp (fun hh => hh.1)).filter _
  exact find?_first (R := fun a b : Event => a.time ≤ b.time) (fun _ => Int.le_refl _) hrel he e'
    (List.mem_filter.mpr ⟨he', decide_eq_true hle⟩) (by simp [hn, hk])

theorem locateEnd_none (h : Core ex ext docs tl) {x : Doc} (hx : x ∈ docs)
    (he : locateEnd tl x = none) : ∀ e ∈ tl, e.kind = .fin → e.doc.num ≠ x.num := by
  intro e hm hk hn
  have hle := (h.endGe e hm hk x hx hn.symm).1
  have := List.find?_eq_none.mp he e (List.mem_filter.mpr ⟨hm, decide_eq_true hle⟩)
  simp [hn, hk] at this

end Resolved

theorem seqResolvedBegin_eq {ex : Prop} {ext : List Doc} {s : State}
    (h : Core ex ext s.docs s.timeline) {x : Doc} (hx : x ∈ s.docs) :
    seqResolvedBegin s x = some x.cbegin := by
  unfold seqResolvedBegin
  rw [if_pos (by simpa using hx), locateBegin_eq h hx]
  rfl

/-- The sequence's resolved end of a held document: the earliest of its end events. -/
theorem seqResolvedEnd_eq {ex : Prop} {ext : List Doc} {s : State}
    (h : Core ex ext s.docs s.timeline) {x : Doc} (hx : x ∈ s.docs) :
    ∃ r, seqResolvedEnd s x = some r ∧
      (∀ t, Cand s.docs x t → ∃ t', r = some t' ∧ t' ≤ t) ∧
      (∀ t', r = some t' → x.cbegin ≤ t' ∧ 0 < t' ∧
        (∃ e ∈ s.timeline, e.kind = .fin ∧ e.doc.num = x.num ∧ e.time = t') ∧
        (∀ e ∈ s.timeline, e.kind = .fin → e.doc.num = x.num → t' ≤ e.time) ∧
        (ex → ∃ t, Cand (ext ++ s.docs) x t ∧ t ≤ t')) ∧
      (r = none → ∀ e ∈ s.timeline, e.kind = .fin → e.doc.num ≠ x.num) := by
  unfold seqResolvedEnd
  rw [if_pos (by simpa using hx)]
  cases hl : locateEnd s.timeline x with
  | none =>
    have hn := locateEnd_none h hx hl
    have hno : ∀ t, ¬ Cand s.docs x t := by
      intro t ht
      obtain ⟨e, he, hk, hn', _⟩ := h.hasEnd x hx t ht
      exact hn e he hk hn'
    have hce : x.cend = none := by
      cases hc : x.cend with
      | none => rfl
      | some t => exact absurd (Or.inl hc) (hno t)
    refine ⟨none, by simp [hce], fun t ht => absurd ht (hno t), by simp, fun _ => hn⟩
  | some e =>
    obtain ⟨h1, h2, h3, h4⟩ := locateEnd_some h hx hl
    have hpos := h.pos e h1 h2
    have hne : e.time ≠ 0 := by omega
    refine ⟨some e.time, by simp [hne], ?_, ?_, by simp⟩
    · intro t ht
      obtain ⟨e', he', hk', hn', hle⟩ := h.hasEnd x hx t ht
      exact ⟨e.time, rfl, by have := h4 e' he' hk' hn'; omega⟩
    · intro t' ht'
      injection ht' with ht'
      subst ht'
      have hg := h.endGe e h1 h2 x hx h3.symm
      exact ⟨hg.1, hpos, ⟨e, h1, h2, h3, rfl⟩, h4, hg.2⟩

end Verif.Seq
