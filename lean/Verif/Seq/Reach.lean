import Verif.Seq.Hist

/-! Invariants over histories. -/
namespace Verif.Seq

/-! ### Histories of additions with arbitrary outcomes -/

/-- Invariant of every history of additions, whatever the calls ended with. -/
structure Weak (s : State) : Prop where
  core : Core False [] s.docs s.timeline
  fin : FinIn s.docs s.timeline
  gone : ∀ p ∈ s.gone, p.2 ≤ p.1.cbegin

theorem Weak.init (cfg : Cfg) (agid : Option String) : Weak (State.init cfg agid) :=
  ⟨Core.empty False, by simp [FinIn, State.init], by simp [State.init]⟩

theorem Weak.add {s : State} {d : Doc} (h : Weak s) (hwt : WellTimed d) : Weak (addDocument s d).1 := by
  rcases add_effect h.core hwt with ⟨_, hs⟩ | ⟨_, hc, _, _, _, ⟨l, hg, hl⟩, _, _, hf⟩ |
    ⟨_, hd, ht, _, _, ⟨t, hle, hg⟩, _⟩ | ⟨_, hd, ht, hg, _⟩ | ⟨_, hc, _, ⟨l, hg, hl⟩, _, _, hf⟩
  · rw [hs]; exact h
  · refine ⟨hc, hf h.fin, ?_⟩
    intro p hp
    rw [hg] at hp
    rcases List.mem_append.mp hp with hp | hp
    · obtain ⟨_, h2, h3⟩ := (hl p).mp hp
      rw [h3]; exact h2.1
    · exact h.gone p hp
  · refine ⟨by rw [hd, ht]; exact h.core, by rw [hd, ht]; exact h.fin, ?_⟩
    intro p hp
    rw [hg] at hp
    rcases List.mem_cons.mp hp with rfl | hp
    · exact hle
    · exact h.gone p hp
  · exact ⟨by rw [hd, ht]; exact h.core, by rw [hd, ht]; exact h.fin, by rw [hg]; exact h.gone⟩
  · refine ⟨finIn_core hc (hf h.fin), hf h.fin, ?_⟩
    intro p hp
    rw [hg] at hp
    rcases List.mem_append.mp hp with hp | hp
    · obtain ⟨_, h2, h3⟩ := (hl p).mp hp
      rw [h3]; exact h2.1
    · exact h.gone p hp

theorem Weak.run : ∀ (ds : List Doc) {s : State}, Weak s → (∀ d ∈ ds, WellTimed d) →
    Weak (Seq.run s ds).1 := by
  intro ds
  induction ds with
  | nil => intro s h _; exact h
  | cons d ds ih =>
    intro s h hw
    exact ih (h.add (hw d List.mem_cons_self)) (fun x hx => hw x (List.mem_cons_of_mem _ hx))

/-! ### Histories of additions without internal errors -/

/-- Invariant of error-free histories; `acc` are the documents accepted so far. -/
structure Strong (s : State) (hist : List Doc) : Prop where
  core : Core True [] s.docs s.timeline
  fin : FinIn s.docs s.timeline
  held : ∀ x ∈ s.docs, x ∈ hist
  acc : ∀ x ∈ hist, x ∈ s.docs ∨ Dominated s.docs x
  gone : ∀ p ∈ s.gone, p.2 ≤ p.1.cbegin ∧ Dominated s.docs p.1
  last : ∀ x ∈ hist, x.num ≤ s.lastNum
  recorded : ∀ x ∈ hist, x ∈ s.docs ∨ ∃ p ∈ s.gone, p.1 = x

theorem Strong.init (cfg : Cfg) (agid : Option String) : Strong (State.init cfg agid) [] :=
  ⟨Core.empty True, by simp [FinIn, State.init], by simp [State.init], by simp, by simp [State.init],
    by simp, by simp⟩

theorem dominated_override {docs docs' : List Doc} {d x : Doc}
    (hdocs : ∀ y, y ∈ docs' ↔ y = d ∨ y ∈ docs ∧ ¬ Overridden d y) (h : Dominated docs x) :
    Dominated docs' x := by
  obtain ⟨D, hD, h1, h2⟩ := h
  by_cases ho : Overridden d D
  · have := ho.1; have := ho.2
    exact ⟨d, (hdocs d).mpr (.inl rfl), by omega, by omega⟩
  · exact ⟨D, (hdocs D).mpr (.inr ⟨hD, ho⟩), h1, h2⟩

theorem Strong.add {s : State} {acc : List Doc} {d : Doc} (h : Strong s acc) (hwt : WellTimed d)
    (hi : (addDocument s d).2.internal = false) :
    Strong (addDocument s d).1 (acc ++ if (addDocument s d).2.ok then [d] else []) := by
  rcases add_effect h.core hwt with ⟨ho, hs⟩ | ⟨ho, hc, hdocs, _, _, ⟨l, hg, hl⟩, hlast, _, hf⟩ |
    ⟨ho, hd, ht, _, hdom, ⟨t, hle, hg⟩, hlast, _⟩ | ⟨ho, _⟩ | ⟨ho, _⟩
  · rw [hs]
    have : (addDocument s d).2.ok = false := by
      cases hh : (addDocument s d).2 <;> rw [hh] at ho <;> simp [Outcome.refused, Outcome.ok] at ho ⊢
    rw [this]; simpa using h
  · rw [ho]
    simp only [Outcome.ok, if_true]
    refine ⟨hc, hf h.fin, ?_, ?_, ?_, ?_, ?_⟩
    · intro x hx
      rcases (hdocs x).mp hx with hx | hx
      · rw [hx]; simp
      · exact List.mem_append_left _ (h.held x hx.1)
    · intro x hx
      rcases List.mem_append.mp hx with hx | hx
      · rcases h.acc x hx with hx | hx
        · by_cases hov : Overridden d x
          · exact .inr ⟨d, (hdocs d).mpr (.inl rfl), hov.2, hov.1⟩
          · exact .inl ((hdocs x).mpr (.inr ⟨hx, hov⟩))
        · exact .inr (dominated_override hdocs hx)
      · rw [List.mem_singleton] at hx
        exact .inl ((hdocs x).mpr (.inl hx))
    · intro p hp
      rw [hg] at hp
      rcases List.mem_append.mp hp with hp | hp
      · obtain ⟨h1, h2, h3⟩ := (hl p).mp hp
        rw [h3]
        exact ⟨h2.1, d, (hdocs d).mpr (.inl rfl), h2.2, h2.1⟩
      · exact ⟨(h.gone p hp).1, dominated_override hdocs (h.gone p hp).2⟩
    · intro x hx
      rw [hlast]
      rcases List.mem_append.mp hx with hx | hx
      · have := h.last x hx; omega
      · rw [List.mem_singleton] at hx; subst hx; omega
    · intro x hx
      rw [hg]
      rcases List.mem_append.mp hx with hx | hx
      · rcases h.recorded x hx with hx | ⟨p, hp, hx⟩
        · by_cases hov : Overridden d x
          · exact .inr ⟨(x, d.cbegin), List.mem_append_left _ ((hl _).mpr ⟨hx, hov, rfl⟩), rfl⟩
          · exact .inl ((hdocs x).mpr (.inr ⟨hx, hov⟩))
        · exact .inr ⟨p, List.mem_append_right _ hp, hx⟩
      · rw [List.mem_singleton] at hx
        exact .inl ((hdocs x).mpr (.inl hx))
  · rw [ho]
    simp only [Outcome.ok, if_true]
    refine ⟨by rw [hd, ht]; exact h.core, by rw [hd, ht]; exact h.fin, ?_, ?_, ?_, ?_, ?_⟩
    · rw [hd]; intro x hx; exact List.mem_append_left _ (h.held x hx)
    · rw [hd]
      intro x hx
      rcases List.mem_append.mp hx with hx | hx
      · exact h.acc x hx
      · rw [List.mem_singleton] at hx; subst hx
        exact .inr hdom
    · rw [hd, hg]
      intro p hp
      rcases List.mem_cons.mp hp with rfl | hp
      · exact ⟨hle, hdom⟩
      · exact h.gone p hp
    · intro x hx
      rw [hlast]
      rcases List.mem_append.mp hx with hx | hx
      · have := h.last x hx; omega
      · rw [List.mem_singleton] at hx; subst hx; omega
    · intro x hx
      rw [hd, hg]
      rcases List.mem_append.mp hx with hx | hx
      · rcases h.recorded x hx with hx | ⟨p, hp, hx⟩
        · exact .inl hx
        · exact .inr ⟨p, List.mem_cons_of_mem _ hp, hx⟩
      · rw [List.mem_singleton] at hx; subst hx
        exact .inr ⟨_, List.mem_cons_self, rfl⟩
  · rw [hi] at ho; simp at ho
  · rcases ho with ho | ho <;> rw [ho] at hi <;> simp [Outcome.internal, Outcome.ok, Outcome.refused] at hi

theorem accepted_cons (d : Doc) (ds : List Doc) (o : Outcome) (os : List Outcome) :
    accepted (d :: ds) (o :: os) = (if o.ok then [d] else []) ++ accepted ds os := by
  unfold accepted
  cases h : o.ok <;> simp [h]

theorem Strong.run : ∀ (ds : List Doc) {s : State} {acc : List Doc}, Strong s acc →
    (∀ d ∈ ds, WellTimed d) → (∀ o ∈ (Seq.run s ds).2, o.internal = false) →
    Strong (Seq.run s ds).1 (acc ++ accepted ds (Seq.run s ds).2) := by
  intro ds
  induction ds with
  | nil => intro s acc h _ _; simpa [Seq.run, accepted] using h
  | cons d ds ih =>
    intro s acc h hw hi
    have h' := h.add (hw d List.mem_cons_self) (hi _ (by simp [Seq.run]))
    have := ih h' (fun x hx => hw x (List.mem_cons_of_mem _ hx))
      (fun o ho => hi o (by simp only [Seq.run]; exact List.mem_cons_of_mem _ ho))
    simp only [Seq.run]
    rw [accepted_cons, ← List.append_assoc]
    exact this

theorem goneEnd_none {s : State} {x : Doc} (h : ∀ p ∈ s.gone, p.1 ≠ x) : goneEnd s x = none := by
  unfold goneEnd
  rw [Option.map_eq_none_iff, List.find?_eq_none]
  intro p hp
  simpa using h p hp

theorem goneEnd_some {s : State} {x : Doc} {t : Int} (h : goneEnd s x = some t) :
    (x, t) ∈ s.gone := by
  unfold goneEnd at h
  rw [Option.map_eq_some_iff] at h
  obtain ⟨p, hp, rfl⟩ := h
  have h1 := List.find?_some hp
  have h2 := List.mem_of_find?_eq_some hp
  simp at h1
  subst h1
  exact h2

theorem dominated_not_mem {docs : List Doc} (h : docs.Pairwise DRel) {x : Doc}
    (hd : Dominated docs x) : x ∉ docs := by
  intro hx
  obtain ⟨D, hD, h1, h2⟩ := hd
  have := (drel_num_lt h hx hD).mp h1
  omega

theorem Strong.goneEnd {s : State} {acc : List Doc} (h : Strong s acc) {x : Doc} (hx : x ∈ s.docs) :
    goneEnd s x = none := by
  apply goneEnd_none
  intro p hp hpx
  exact dominated_not_mem h.core.drel (h.gone p hp).2 (hpx ▸ hx)

/-! ### `discard_before` -/

theorem drop_core {ex : Prop} {s s' : State} {d : Doc} (h : Core ex [] s.docs s.timeline)
    (hd : d ∈ s.docs) (hs : discardBefore s d = some s') :
    Core ex [] s'.docs s'.timeline ∧ s'.docs = s.docs.filter (fun x => decide (d.num ≤ x.num)) ∧
      s'.timeline = s.timeline.filter (fun x => !(decide (x.time ≤ d.cbegin) && x.doc.num != d.num)) ∧
      (∃ l, s'.gone = l ++ s.gone ∧ (∀ p ∈ l, p.1 ∈ s.docs ∧ p.1.num < d.num ∧ p.2 = 0) ∧
        ∀ x ∈ s.docs, x.num < d.num → (x, 0) ∈ l) ∧
      s'.cfg = s.cfg ∧ s'.agid = s.agid ∧ s'.lastNum = s.lastNum := by
  unfold discardBefore at hs
  simp only at hs
  split at hs
  · simp at hs
  rename_i hany
  injection hs with hs
  subst hs
  have hitems : ∀ x, x ∈ ((s.timeline.filter
      (fun x => decide (x.time ≤ d.cbegin) && x.doc.num != d.num)).map (·.doc)).eraseDups ↔
      ∃ e ∈ s.timeline, e.time ≤ d.cbegin ∧ e.doc.num ≠ d.num ∧ e.doc = x := by
    intro x
    rw [List.mem_eraseDups]
    simp only [List.mem_map, List.mem_filter]
    constructor
    · rintro ⟨e, ⟨h1, h2⟩, h3⟩
      simp at h2
      exact ⟨e, h1, h2.1, h2.2, h3⟩
    · rintro ⟨e, h1, h2, h3, h4⟩
      exact ⟨e, ⟨h1, by simp [h2, h3]⟩, h4⟩
  generalize ((s.timeline.filter
      (fun x => decide (x.time ≤ d.cbegin) && x.doc.num != d.num)).map (·.doc)).eraseDups = items at *
  have hheld : ∀ x ∈ items, x ∈ s.docs := by
    intro x hx
    refine Classical.byContradiction fun hn => ?_
    apply hany
    rw [List.any_eq_true]
    exact ⟨x, hx, by simp [hn]⟩
  have hiff : ∀ x ∈ s.docs, (x ∈ items ↔ x.num < d.num) := by
    intro x hx
    rw [hitems]
    constructor
    · rintro ⟨e, he, ht, hn, hex⟩
      subst hex
      have hle : e.doc.cbegin ≤ e.time := by
        cases hk : e.kind with
        | bgn =>
          have := (h.bgn e he hk).2
          have : e.time = e.doc.cbegin := by rw [this]; rfl
          omega
        | fin => exact (h.endGe e he hk _ hx rfl).1
      rcases drel_cases h.drel hx hd with heq | hr | hr
      · exact absurd (by rw [heq]) hn
      · exact hr.1
      · have := hr.2; omega
    · intro hlt
      have := (drel_num_lt h.drel hx hd).mp hlt
      exact ⟨beginEvent x, h.hasBgn x hx, by simp [beginEvent]; omega, by simp [beginEvent]; omega, rfl⟩
  have hdocs : s.docs.filter (fun x => !(items.contains x)) =
      s.docs.filter (fun x => decide (d.num ≤ x.num)) := by
    apply List.filter_congr
    intro x hx
    have := hiff x hx
    by_cases hm : x ∈ items
    · have h1 := this.mp hm
      simp [hm]; omega
    · have h1 := mt this.mpr hm
      simp [hm]; omega
  have hmemd : ∀ x, x ∈ s.docs.filter (fun x => !(items.contains x)) ↔ x ∈ s.docs ∧ d.num ≤ x.num := by
    intro x; rw [hdocs]; simp
  have hmemt : ∀ e, e ∈ s.timeline.filter (fun x => !(decide (x.time ≤ d.cbegin) && x.doc.num != d.num)) ↔
      e ∈ s.timeline ∧ (d.cbegin < e.time ∨ e.doc.num = d.num) := by
    intro e
    simp only [List.mem_filter]
    constructor
    · rintro ⟨h1, h2⟩
      refine ⟨h1, ?_⟩
      simpa using h2
    · rintro ⟨h1, h2⟩
      exact ⟨h1, by simpa using h2⟩
  -- events of kept documents are kept
  have hkept : ∀ x ∈ s.docs, d.num ≤ x.num → ∀ e ∈ s.timeline, x.cbegin ≤ e.time → e.doc.num = x.num →
      d.cbegin < e.time ∨ e.doc.num = d.num := by
    intro x hx hle e he ht hn
    rcases drel_cases h.drel hx hd with heq | hr | hr
    · right; rw [hn, heq]
    · have := hr.1; omega
    · left; have := hr.2; omega
  refine ⟨?_, hdocs, rfl, ⟨items.map (fun x => (x, (0 : Int))), rfl, ?_, ?_⟩, rfl, rfl, rfl⟩
  · refine ⟨h.rel.filter _, h.nodup.filter _, h.drel.filter _, ?_, ?_, ?_, ?_, ?_, ?_, ?_⟩
    · intro x hx; exact h.wt x ((hmemd x).mp hx).1
    · intro e he hk
      obtain ⟨h1, h2⟩ := (hmemt e).mp he
      obtain ⟨g1, g2⟩ := h.bgn e h1 hk
      have : e.time = e.doc.cbegin := by rw [g2]; rfl
      refine ⟨(hmemd _).mpr ⟨g1, ?_⟩, g2⟩
      rcases h2 with h2 | h2
      · have := (drel_num_lt h.drel hd g1).mpr (by omega); omega
      · omega
    · intro x hx
      obtain ⟨h1, h2⟩ := (hmemd x).mp hx
      exact (hmemt _).mpr ⟨h.hasBgn x h1, hkept x h1 h2 _ (h.hasBgn x h1) (by simp [beginEvent]) rfl⟩
    · intro x hx t ht
      obtain ⟨h1, h2⟩ := (hmemd x).mp hx
      have ht' : Cand s.docs x t := by
        rcases ht with ht | ⟨y, hy, g1, g2⟩
        · exact .inl ht
        · exact .inr ⟨y, ((hmemd y).mp hy).1, g1, g2⟩
      obtain ⟨e, he, hk, hn, hle⟩ := h.hasEnd x h1 t ht'
      exact ⟨e, (hmemt _).mpr ⟨he, hkept x h1 h2 e he (h.endGe e he hk x h1 hn.symm).1 hn⟩, hk, hn, hle⟩
    · intro e he hk x hx hn
      obtain ⟨h1, h2⟩ := (hmemd x).mp hx
      obtain ⟨g1, g2⟩ := h.endGe e ((hmemt e).mp he).1 hk x h1 hn
      refine ⟨g1, fun hex => ?_⟩
      obtain ⟨t, ht, hle⟩ := g2 hex
      refine ⟨t, ?_, hle⟩
      rcases ht with ht | ⟨y, hy, k1, k2⟩
      · exact .inl ht
      · rw [List.nil_append] at hy
        exact .inr ⟨y, by rw [List.nil_append]; exact (hmemd y).mpr ⟨hy, by omega⟩, k1, k2⟩
    · intro e he hk
      obtain ⟨h1, h2⟩ := (hmemt e).mp he
      have hdm : d ∈ s.docs.filter (fun x => !(items.contains x)) := (hmemd d).mpr ⟨hd, by omega⟩
      rcases h.orph e h1 hk with ⟨x, hx, hn, hor⟩ | ⟨D, hD, k1, k2⟩
      · by_cases hle : d.num ≤ x.num
        · exact .inl ⟨x, (hmemd x).mpr ⟨hx, hle⟩, hn, hor⟩
        · right
          refine ⟨d, by rw [List.nil_append]; exact hdm, by omega, ?_⟩
          rcases h2 with h2 | h2
          · exact h2
          · omega
      · rw [List.nil_append] at hD
        right
        by_cases hle : d.num ≤ D.num
        · exact ⟨D, by rw [List.nil_append]; exact (hmemd D).mpr ⟨hD, hle⟩, k1, k2⟩
        · refine ⟨d, by rw [List.nil_append]; exact hdm, by omega, ?_⟩
          rcases h2 with h2 | h2
          · exact h2
          · omega
    · intro e he; exact h.pos e ((hmemt e).mp he).1
  · intro p hp
    obtain ⟨x, hx, rfl⟩ := List.mem_map.mp hp
    exact ⟨hheld x hx, (hiff x (hheld x hx)).mp hx, rfl⟩
  · intro x hx hlt
    exact List.mem_map.mpr ⟨x, (hiff x hx).mpr hlt, rfl⟩

/-- `discard_before` succeeds when every end event belongs to a held document. -/
theorem drop_succeeds {ex : Prop} {s : State} {d : Doc} (h : Core ex [] s.docs s.timeline)
    (hf : FinIn s.docs s.timeline) : ∃ s', discardBefore s d = some s' := by
  unfold discardBefore
  simp only
  split
  · rename_i hany
    exfalso
    rw [List.any_eq_true] at hany
    obtain ⟨x, hx, hc⟩ := hany
    rw [List.mem_eraseDups] at hx
    obtain ⟨e, he, rfl⟩ := List.mem_map.mp hx
    have he := (List.mem_filter.mp he).1
    have hm : e.doc ∈ s.docs := by
      cases hk : e.kind with
      | bgn => exact (h.bgn e he hk).1
      | fin => exact hf e he hk
    have := (h.wt _ hm).1
    simp [hm] at hc
    omega
  · exact ⟨_, rfl⟩

/-! ### Reachable states -/

/-- Invariant of reachable states. -/
structure RInv (s : State) (log : List Doc) : Prop where
  core : Core True [] s.docs s.timeline
  held : ∀ x ∈ s.docs, x ∈ log
  gone : ∀ p ∈ s.gone, p.1 ∈ log ∧ p.1 ∉ s.docs ∧ p.2 ≤ p.1.cbegin

theorem Reach.inv {cfg : Cfg} {agid : Option String} {s : State} {log : List Doc}
    (h : Reach cfg agid s log) : RInv s log := by
  induction h with
  | init => exact ⟨Core.empty True, by simp [State.init], by simp [State.init]⟩
  | @add s log d hr hwt hd hi ih =>
    have hne : ∀ x ∈ s.docs, x ≠ d := fun x hx hxd => hd (hxd ▸ ih.held x hx)
    rcases add_effect ih.core hwt with ⟨ho, hs⟩ | ⟨ho, hc, hdocs, _, _, ⟨l, hg, hl⟩, _, _, hf⟩ |
      ⟨ho, hdc, ht, _, hdom, ⟨t, hle, hg⟩, hlast, _⟩ | ⟨ho, _⟩ | ⟨ho, _⟩
    · rw [hs]
      exact ⟨ih.core, fun x hx => List.mem_cons_of_mem _ (ih.held x hx),
        fun p hp => ⟨List.mem_cons_of_mem _ (ih.gone p hp).1, (ih.gone p hp).2⟩⟩
    · refine ⟨hc, ?_, ?_⟩
      · intro x hx
        rcases (hdocs x).mp hx with hx | hx
        · rw [hx]; exact List.mem_cons_self
        · exact List.mem_cons_of_mem _ (ih.held x hx.1)
      · intro p hp
        rw [hg] at hp
        rcases List.mem_append.mp hp with hp | hp
        · obtain ⟨h1, h2, h3⟩ := (hl p).mp hp
          refine ⟨List.mem_cons_of_mem _ (ih.held _ h1), ?_, by rw [h3]; exact h2.1⟩
          intro hm
          rcases (hdocs _).mp hm with hm | hm
          · exact hne _ h1 hm
          · exact hm.2 h2
        · obtain ⟨h1, h2, h3⟩ := ih.gone p hp
          refine ⟨List.mem_cons_of_mem _ h1, ?_, h3⟩
          intro hm
          rcases (hdocs _).mp hm with hm | hm
          · exact hd (hm ▸ h1)
          · exact h2 hm.1
    · refine ⟨by rw [hdc, ht]; exact ih.core, ?_, ?_⟩
      · rw [hdc]; intro x hx; exact List.mem_cons_of_mem _ (ih.held x hx)
      · rw [hdc, hg]
        intro p hp
        rcases List.mem_cons.mp hp with rfl | hp
        · exact ⟨List.mem_cons_self, fun hm => hne _ hm rfl, hle⟩
        · exact ⟨List.mem_cons_of_mem _ (ih.gone p hp).1, (ih.gone p hp).2⟩
    · rw [hi] at ho; simp at ho
    · rcases ho with ho | ho <;> rw [ho] at hi <;>
        simp [Outcome.internal, Outcome.ok, Outcome.refused] at hi
  | new _ ih => exact ⟨ih.core, ih.held, ih.gone⟩
  | @drop s log d s' hr hd hs ih =>
    obtain ⟨hc, hdocs, _, ⟨l, hg, hl, _⟩, _⟩ := drop_core ih.core hd hs
    have hm : ∀ x, x ∈ s'.docs ↔ x ∈ s.docs ∧ d.num ≤ x.num := by
      intro x; rw [hdocs]; simp
    refine ⟨hc, fun x hx => ih.held x ((hm x).mp hx).1, ?_⟩
    intro p hp
    rw [hg] at hp
    rcases List.mem_append.mp hp with hp | hp
    · obtain ⟨h1, h2, h3⟩ := hl p hp
      refine ⟨ih.held _ h1, ?_, by rw [h3]; exact (ih.core.wt _ h1).1⟩
      intro hx
      have := ((hm _).mp hx).2
      omega
    · exact ⟨(ih.gone p hp).1, fun hx => (ih.gone p hp).2.1 ((hm _).mp hx).1, (ih.gone p hp).2.2⟩

theorem RInv.goneEnd {s : State} {log : List Doc} (h : RInv s log) {x : Doc} (hx : x ∈ s.docs) :
    goneEnd s x = none := by
  apply goneEnd_none
  intro p hp hpx
  exact (h.gone p hp).2.1 (hpx ▸ hx)

theorem RInv.resolvedBegin {s : State} {log : List Doc} (h : RInv s log) {x : Doc}
    (hx : x ∈ s.docs) : resolvedBegin s x = some x.cbegin := by
  unfold Seq.resolvedBegin
  rw [h.goneEnd hx]
  exact seqResolvedBegin_eq h.core hx

theorem RInv.resolvedEnd {s : State} {log : List Doc} (h : RInv s log) {x : Doc}
    (hx : x ∈ s.docs) : resolvedEnd s x = seqResolvedEnd s x := by
  unfold Seq.resolvedEnd
  rw [h.goneEnd hx]

end Verif.Seq
