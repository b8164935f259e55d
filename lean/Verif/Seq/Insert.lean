import Verif.Seq.Lemmas

/-! The invariant is preserved by a successful `_insert_or_discard`. -/
namespace Verif.Seq

theorem pairwise_append_right {L pre post : List Event} (h : L.Pairwise Rel) (hL : L = pre ++ post) :
    post.Pairwise Rel := by
  subst hL; exact (List.pairwise_append.mp h).2.1

/-- What both scans establish when neither raised. -/
structure Scanned (docs : List Doc) (tl : List Event) (d : Doc) (bb ea tr : Option Event) :
    Prop where
  above : ∀ y ∈ docs, d.num < y.num → d.cbegin < y.cbegin
  below : ∀ x ∈ docs, x.num < d.num → x.cbegin < d.cbegin
  ended : ∀ x ∈ docs, x.num < d.num →
    (∃ e ∈ tl, e.kind = .fin ∧ e.doc.num = x.num ∧ e.time ≤ d.cbegin) ∨
    ∃ p, bb = some p ∧ p.doc = x
  prev : ∀ p, bb = some p → p.doc ∈ docs ∧ p = beginEvent p.doc ∧ p.doc.num < d.num ∧
    (∀ e ∈ tl, e.kind = .fin → e.doc.num = p.doc.num → d.cbegin < e.time) ∧
    (∀ e, ea = some e → e ∈ tl ∧ e.kind = .fin ∧ e.doc.num = p.doc.num)
  endCand : ∀ t, thisEnd d tr = some t → d.cbegin ≤ t ∧ Cand docs d t
  endLe : ∀ t, Cand docs d t → ∃ t', thisEnd d tr = some t' ∧ t' ≤ t

theorem scanned {ex : Prop} {docs : List Doc} {tl : List Event} {d : Doc} {bb ea tr : Option Event}
    (h : Core ex [d] docs tl) (hwt : WellTimed d) (hnew : ∀ x ∈ docs, x.num ≠ d.num)
    (hb : scanBack d.num none ((tl.filter (fun x => x.time ≤ d.cbegin)).reverse) = .ok bb)
    (hf : scanFwd d bb none (tl.filter (fun x => d.cbegin ≤ x.time)) = .ok ea tr) :
    Scanned docs tl d bb ea tr := by
  -- forward scan
  have hfd : ∀ e ∈ tl.filter (fun x => d.cbegin ≤ x.time), e.kind = .bgn → e.doc.num ≠ d.num := by
    intro e he hk
    exact hnew _ (h.bgn e (List.mem_filter.mp he).1 hk).1
  obtain ⟨pre, post, hL, hpreF, hpreP, hea, hpost⟩ := scanFwd_ok hfd hf
  have hFrel : (tl.filter (fun x => decide (d.cbegin ≤ x.time))).Pairwise Rel := h.rel.filter _
  have hpostRel := pairwise_append_right hFrel hL
  -- a held document that begins at or after the new one is greater and begins at/after `it`
  have hfwd : ∀ x ∈ docs, d.cbegin ≤ x.cbegin → ∃ it rest c, post = it :: rest ∧ it.kind = .bgn ∧
      d.num < it.doc.num ∧ d.cend = some c ∧ it.time ≤ x.cbegin ∧ d.num < x.num ∧
      ((it.time < c ∧ tr = some it) ∨ (c ≤ it.time ∧ tr = none)) := by
    intro x hx hle
    have hmem : beginEvent x ∈ pre ++ post := by
      rw [← hL]; exact List.mem_filter.mpr ⟨h.hasBgn x hx, decide_eq_true hle⟩
    rcases List.mem_append.mp hmem with hm | hm
    · have := hpreF _ hm; simp [beginEvent] at this
    · rcases hpost with ⟨hp, _⟩ | ⟨it, rest, c, hp, hk, hlt, hc, htr⟩
      · rw [hp] at hm; simp at hm
      · have hitmem : it ∈ tl := by
          have : it ∈ tl.filter (fun x => decide (d.cbegin ≤ x.time)) := by rw [hL, hp]; simp
          exact (List.mem_filter.mp this).1
        have hit := h.bgn it hitmem hk
        have hitt : it.time = it.doc.cbegin := by rw [hit.2]; rfl
        have hle' : it.time ≤ x.cbegin := by
          rw [hp] at hm hpostRel
          rcases List.mem_cons.mp hm with hm | hm
          · rw [← hm]; simp [beginEvent]
          · exact (List.rel_of_pairwise_cons hpostRel hm).1
        refine ⟨it, rest, c, hp, hk, hlt, hc, hle', ?_, htr⟩
        rcases drel_cases h.drel hx hit.1 with heq | hr | hr
        · rw [heq]; exact hlt
        · have := hr.2; omega
        · have := hr.1; omega
  have hbelow : ∀ x ∈ docs, x.num < d.num → x.cbegin < d.cbegin := by
    intro x hx hlt
    rcases Int.lt_or_le x.cbegin d.cbegin with h' | h'
    · exact h'
    · obtain ⟨_, _, _, _, _, _, _, _, h'', _⟩ := hfwd x hx h'
      omega
  -- backward scan
  have hback := scanBack_ok hb
  have hBrel : (tl.filter (fun x => decide (x.time ≤ d.cbegin))).Pairwise Rel := h.rel.filter _
  have hinB : ∀ x ∈ docs, x.cbegin ≤ d.cbegin →
      beginEvent x ∈ (tl.filter (fun x => decide (x.time ≤ d.cbegin))).reverse := by
    intro x hx hle
    exact List.mem_reverse.mpr (List.mem_filter.mpr ⟨h.hasBgn x hx, decide_eq_true hle⟩)
  rcases hback with ⟨hall, hbb⟩ | ⟨bpre, p, bpost, hR, hbpre, hpk, hpn, hor⟩
  · -- no begin event up to here
    have hno : ∀ x ∈ docs, d.cbegin < x.cbegin := by
      intro x hx
      rcases Int.lt_or_le d.cbegin x.cbegin with h' | h'
      · exact h'
      · have := (hall _ (hinB x hx h')).1
        simp [beginEvent] at this
    refine ⟨fun y hy _ => hno y hy, hbelow, ?_, ?_, ?_, ?_⟩
    · intro x hx hlt
      have h1 := hbelow x hx hlt; have h2 := hno x hx; omega
    · intro p hp; rw [hbb] at hp; simp at hp
    · intro t ht
      rcases hpost with ⟨_, htr⟩ | ⟨it, rest, c, hp, hk, hlt, hc, htr⟩
      · subst htr; simp [thisEnd] at ht; exact ⟨(hwt.2 t ht).1, .inl ht⟩
      · have hitmem : it ∈ tl.filter (fun x => decide (d.cbegin ≤ x.time)) := by rw [hL, hp]; simp
        have hit' := List.mem_filter.mp hitmem
        have hit := h.bgn it hit'.1 hk
        have hle : d.cbegin ≤ it.time := by simpa using hit'.2
        rcases htr with ⟨hgt, htr⟩ | ⟨hgt, htr⟩
        · subst htr; simp [thisEnd] at ht; subst ht
          exact ⟨hle, .inr ⟨it.doc, hit.1, hlt, by rw [hit.2]; rfl⟩⟩
        · subst htr; simp [thisEnd] at ht; exact ⟨(hwt.2 t ht).1, .inl ht⟩
    · intro t ht
      rcases ht with ht | ⟨y, hy, h1, h2⟩
      · rcases hpost with ⟨_, htr⟩ | ⟨it, rest, c, hp, hk, hlt, hc, htr⟩
        · exact ⟨t, by rw [htr]; simpa [thisEnd] using ht, by omega⟩
        · rcases htr with ⟨hgt, htr⟩ | ⟨hgt, htr⟩
          · refine ⟨it.time, by rw [htr]; rfl, ?_⟩
            rw [hc] at ht; injection ht with ht; omega
          · exact ⟨t, by rw [htr]; simpa [thisEnd] using ht, by omega⟩
      · obtain ⟨it, rest, c, _, _, _, hc, hle, _, htr⟩ := hfwd y hy (by have := hno y hy; omega)
        rcases htr with ⟨hgt, htr⟩ | ⟨hgt, htr⟩
        · exact ⟨it.time, by rw [htr]; rfl, by omega⟩
        · exact ⟨c, by rw [htr]; simpa [thisEnd] using hc, by omega⟩
  · -- `p` is the last begin event up to here
    have hpF : p ∈ tl.filter (fun x => decide (x.time ≤ d.cbegin)) := by
      apply List.mem_reverse.mp; rw [hR]; simp
    have hpF' := List.mem_filter.mp hpF
    have hpb := h.bgn p hpF'.1 hpk
    have hpt : p.time = p.doc.cbegin := by rw [hpb.2]; rfl
    have hple : p.time ≤ d.cbegin := by simpa using hpF'.2
    have hRrev : (tl.filter (fun x => decide (x.time ≤ d.cbegin))) = bpost.reverse ++ p :: bpre.reverse := by
      have := congrArg List.reverse hR
      simpa using this
    have hrelp : (bpost.reverse ++ p :: bpre.reverse).Pairwise Rel := hRrev ▸ hBrel
    have hlast : ∀ x ∈ docs, x.cbegin ≤ d.cbegin → x.cbegin ≤ p.doc.cbegin := by
      intro x hx hle
      have hm : beginEvent x ∈ bpost.reverse ++ p :: bpre.reverse := by
        rw [← hRrev]; exact List.mem_reverse.mp (hinB x hx hle)
      rcases List.mem_append.mp hm with hm | hm
      · have := (List.pairwise_append.mp hrelp).2.2 _ hm p List.mem_cons_self
        have := this.1
        simp [beginEvent] at this; omega
      · rcases List.mem_cons.mp hm with hm | hm
        · rw [← hm]; simp [beginEvent]
        · have := (hbpre _ (List.mem_reverse.mp hm)).1
          simp [beginEvent] at this
    have hpne : p.doc.num ≠ d.num := hnew _ hpb.1
    have hplt : p.doc.num < d.num := by omega
    have habove : ∀ y ∈ docs, d.num < y.num → d.cbegin < y.cbegin := by
      intro y hy hlt
      rcases Int.lt_or_le d.cbegin y.cbegin with h' | h'
      · exact h'
      · have h1 := hlast y hy h'
        rcases drel_cases h.drel hy hpb.1 with heq | hr | hr
        · rw [heq] at hlt; omega
        · have := hr.1; omega
        · have := hr.2; omega
    have hpcb := hbelow _ hpb.1 hplt
    refine ⟨habove, hbelow, ?_, ?_, ?_, ?_⟩
    · intro x hx hlt
      have hxb := hbelow x hx hlt
      have hxp := hlast x hx (by omega)
      rcases drel_cases h.drel hx hpb.1 with heq | hr | hr
      · rcases hor with ⟨hbb, _⟩ | ⟨hbb, hex⟩
        · exact .inr ⟨p, hbb, heq.symm⟩
        · left
          rcases hex with ⟨e, he, hn⟩ | ⟨_, hn, _⟩
          · have heF : e ∈ tl.filter (fun x => decide (x.time ≤ d.cbegin)) := by
              rw [hRrev]; simp [he]
            have heF' := List.mem_filter.mp heF
            exact ⟨e, heF'.1, (hbpre e he).1, by rw [hn, heq], by simpa using heF'.2⟩
          · simp at hn
      · left
        obtain ⟨e, he, hk, hn, hle⟩ := h.hasEnd x hx p.doc.cbegin (.inr ⟨p.doc, hpb.1, hr.1, rfl⟩)
        exact ⟨e, he, hk, hn, by omega⟩
      · have := hr.2; omega
    · intro p' hp'
      rcases hor with ⟨hbb, hne, _⟩ | ⟨hbb, _⟩
      · rw [hbb] at hp'; injection hp' with hp'; subst hp'
        refine ⟨hpb.1, hpb.2, hplt, ?_, ?_⟩
        · intro e he hk hn
          rcases Int.lt_or_le d.cbegin e.time with h' | h'
          · exact h'
          · exfalso
            have heF : e ∈ bpost.reverse ++ p :: bpre.reverse := by
              rw [← hRrev]; exact List.mem_filter.mpr ⟨he, by simpa using h'⟩
            rcases List.mem_append.mp heF with hm | hm
            · have := (List.pairwise_append.mp hrelp).2.2 _ hm p List.mem_cons_self
              exact this.2 ⟨hk, hpk, hn⟩
            · rcases List.mem_cons.mp hm with hm | hm
              · rw [hm, hpk] at hk; simp at hk
              · exact hne e (List.mem_reverse.mp hm) hn
        · intro e he
          rcases hea with ⟨_, hea⟩ | ⟨e', he', hea⟩
          · rw [hea] at he; simp at he
          · rw [hea] at he; injection he with he; subst he
            have hem : e' ∈ tl.filter (fun x => decide (d.cbegin ≤ x.time)) := by
              rw [hL]; exact List.mem_append_left _ he'
            have hem' := List.mem_filter.mp hem
            refine ⟨hem'.1, hpreF _ he', ?_⟩
            rcases hpreP p hbb e' he' with h' | h'
            · exact h'
            · have : d.cbegin ≤ e'.time := by simpa using hem'.2
              omega
      · rw [hbb] at hp'; simp at hp'
    · intro t ht
      rcases hpost with ⟨_, htr⟩ | ⟨it, rest, c, hp, hk, hlt, hc, htr⟩
      · subst htr; simp [thisEnd] at ht; exact ⟨(hwt.2 t ht).1, .inl ht⟩
      · have hitmem : it ∈ tl.filter (fun x => decide (d.cbegin ≤ x.time)) := by rw [hL, hp]; simp
        have hit' := List.mem_filter.mp hitmem
        have hit := h.bgn it hit'.1 hk
        have hle : d.cbegin ≤ it.time := by simpa using hit'.2
        rcases htr with ⟨hgt, htr⟩ | ⟨hgt, htr⟩
        · subst htr; simp [thisEnd] at ht; subst ht
          exact ⟨hle, .inr ⟨it.doc, hit.1, hlt, by rw [hit.2]; rfl⟩⟩
        · subst htr; simp [thisEnd] at ht; exact ⟨(hwt.2 t ht).1, .inl ht⟩
    · intro t ht
      rcases ht with ht | ⟨y, hy, h1, h2⟩
      · rcases hpost with ⟨_, htr⟩ | ⟨it, rest, c, hp, hk, hlt, hc, htr⟩
        · exact ⟨t, by rw [htr]; simpa [thisEnd] using ht, by omega⟩
        · rcases htr with ⟨hgt, htr⟩ | ⟨hgt, htr⟩
          · refine ⟨it.time, by rw [htr]; rfl, ?_⟩
            rw [hc] at ht; injection ht with ht; omega
          · exact ⟨t, by rw [htr]; simpa [thisEnd] using ht, by omega⟩
      · obtain ⟨it, rest, c, _, _, _, hc, hle, _, htr⟩ := hfwd y hy (by have := habove y hy h1; omega)
        rcases htr with ⟨hgt, htr⟩ | ⟨hgt, htr⟩
        · exact ⟨it.time, by rw [htr]; rfl, by omega⟩
        · exact ⟨c, by rw [htr]; simpa [thisEnd] using hc, by omega⟩

/-- Facts about the timeline after the preceding document's end has been moved. -/
structure Trimmed (tl : List Event) (bb : Option Event) (b : Int) (T : List Event) : Prop where
  rel : T.Pairwise Rel
  nodup : T.Nodup
  mem : ∀ e ∈ T, e ∈ tl ∨ ∃ p, bb = some p ∧ e.kind = .fin ∧ e.doc.num = p.doc.num ∧ e.time = b
  keepBgn : ∀ e ∈ tl, e.kind = .bgn → e ∈ T
  keepEnd : ∀ e ∈ tl, e.kind = .fin →
    ∃ e' ∈ T, e'.kind = .fin ∧ e'.doc.num = e.doc.num ∧ e'.time ≤ e.time
  ended : ∀ p, bb = some p → ∃ e ∈ T, e.kind = .fin ∧ e.doc.num = p.doc.num ∧ e.time ≤ b

theorem trimmed {ex : Prop} {docs : List Doc} {tl : List Event} {d : Doc} {bb ea tr : Option Event}
    (h : Core ex [d] docs tl) (hs : Scanned docs tl d bb ea tr) :
    Trimmed tl bb d.cbegin (trimPrev tl bb ea d.cbegin) := by
  cases bb with
  | none =>
    exact ⟨h.rel, h.nodup, fun e he => .inl he, fun e he _ => he,
      fun e he hk => ⟨e, he, hk, rfl, by omega⟩, by simp⟩
  | some p =>
    obtain ⟨hpm, hpe, hplt, hpend, hea⟩ := hs.prev p rfl
    have hpt : p.time = p.doc.cbegin := by rw [hpe]; rfl
    have hpb := hs.below _ hpm hplt
    -- a new end event of `p` at `b` on any sublist `L` of the timeline
    have gen : ∀ (m : Event) (L : List Event), m.kind = .fin → m.doc.num = p.doc.num →
        m.time = d.cbegin → L.Sublist tl → (insertEv m L).Pairwise Rel ∧ (insertEv m L).Nodup := by
      intro m L hmk hmn hmt hsub
      have hLm : ∀ e ∈ L, e ∈ tl := fun e he => hsub.subset he
      refine ⟨insertEv_pairwise (h.rel.sublist hsub) ?_ ?_, insertEv_nodup (h.nodup.sublist hsub) ?_⟩
      · intro x hx hle
        exact ⟨hle, fun hh => by rw [hmk] at hh; simp at hh⟩
      · intro x hx hlt
        refine ⟨by omega, fun hh => ?_⟩
        have hxb := h.bgn x (hLm x hx) hh.2.1
        have : x.doc = p.doc := drel_eq h.drel hxb.1 hpm (by omega)
        have hxt : x.time = x.doc.cbegin := by rw [hxb.2]; rfl
        rw [this] at hxt
        omega
      · intro hm
        have := hpend m (hLm m hm) hmk hmn
        omega
    cases ea with
    | none =>
      simp only [trimPrev]
      obtain ⟨g1, g2⟩ := gen ⟨.fin, p.doc, d.cbegin⟩ tl rfl rfl rfl (List.Sublist.refl _)
      refine ⟨g1, g2, ?_, ?_, ?_, ?_⟩
      · intro e he
        rcases mem_insertEv.mp he with rfl | he
        · exact .inr ⟨p, rfl, rfl, rfl, rfl⟩
        · exact .inl he
      · intro e he _; exact mem_insertEv.mpr (.inr he)
      · intro e he hk; exact ⟨e, mem_insertEv.mpr (.inr he), hk, rfl, by omega⟩
      · intro p' hp'; injection hp' with hp'; subst hp'
        exact ⟨_, mem_insertEv.mpr (.inl rfl), rfl, rfl, by simp⟩
    | some m =>
      obtain ⟨hm, hmk, hmn⟩ := hea m rfl
      have hmlt := hpend m hm hmk hmn
      simp only [trimPrev]
      obtain ⟨g1, g2⟩ := gen { m with time := d.cbegin } (tl.erase m) hmk hmn rfl List.erase_sublist
      refine ⟨g1, g2, ?_, ?_, ?_, ?_⟩
      · intro e he
        rcases mem_insertEv.mp he with rfl | he
        · exact .inr ⟨p, rfl, hmk, hmn, rfl⟩
        · exact .inl (List.mem_of_mem_erase he)
      · intro e he hk
        refine mem_insertEv.mpr (.inr ?_)
        refine (List.mem_erase_of_ne ?_).mpr he
        intro heq; rw [heq, hmk] at hk; simp at hk
      · intro e he hk
        by_cases heq : e = m
        · subst heq
          exact ⟨_, mem_insertEv.mpr (.inl rfl), hmk, rfl, by simp; omega⟩
        · exact ⟨e, mem_insertEv.mpr (.inr ((List.mem_erase_of_ne heq).mpr he)), hk, rfl, by omega⟩
      · intro p' hp'; injection hp' with hp'; subst hp'
        exact ⟨_, mem_insertEv.mpr (.inl rfl), hmk, hmn, by simp⟩

theorem insert_core {ex : Prop} {docs : List Doc} {tl : List Event} {d : Doc} {docs' : List Doc}
    {tl' : List Event} (h : Core ex [d] docs tl) (hwt : WellTimed d)
    (hnew : ∀ x ∈ docs, x.num ≠ d.num) (hok : insertOrDiscard docs tl d = .ok docs' tl') :
    Core ex [] docs' tl' ∧ docs' = insertDoc d docs ∧
      (∀ y ∈ docs, d.num < y.num → d.cbegin < y.cbegin) ∧
      (∀ x ∈ docs, x.num < d.num → x.cbegin < d.cbegin) := by
  unfold insertOrDiscard at hok
  split at hok
  · simp at hok
  · simp at hok
  rename_i bb hb
  split at hok
  · simp at hok
  · simp at hok
  · simp at hok
  rename_i ea tr hf
  have hs := scanned h hwt hnew hb hf
  have hT := trimmed h hs
  injection hok with hdocs htl
  subst hdocs
  refine ⟨?_, rfl, hs.above, hs.below⟩
  generalize trimPrev tl bb ea d.cbegin = T at hT htl
  -- orphans with the number of `d` are later than `d`
  have horph : ∀ e ∈ T, e.kind = .fin → e.doc.num = d.num →
      e ∈ tl ∧ ∃ y ∈ docs, d.num < y.num ∧ y.cbegin < e.time := by
    intro e he hk hn
    rcases hT.mem e he with he' | ⟨p, hp, _, hn', _⟩
    · refine ⟨he', ?_⟩
      rcases h.orph e he' hk with ⟨x, hx, hx', _⟩ | ⟨D, hD, h1, h2⟩
      · exact absurd (by omega) (hnew x hx)
      · rcases List.mem_append.mp hD with hD | hD
        · rw [List.mem_singleton] at hD; subst hD; omega
        · exact ⟨D, hD, by omega, h2⟩
    · have := (hs.prev p hp).2.2.1; omega
  -- after inserting the begin event
  have hB1 : (insertEv (beginEvent d) T).Pairwise Rel := by
    refine insertEv_pairwise hT.rel ?_ ?_
    · intro x hx hle
      refine ⟨hle, fun hh => ?_⟩
      obtain ⟨_, y, hy, h1, h2⟩ := horph x hx hh.1 hh.2.2
      have := hs.above y hy h1
      simp [beginEvent] at hle
      omega
    · intro x hx hlt
      exact ⟨by omega, fun hh => by simp [beginEvent] at hh⟩
  have hB2 : (insertEv (beginEvent d) T).Nodup := by
    refine insertEv_nodup hT.nodup ?_
    intro hm
    rcases hT.mem _ hm with hm | ⟨p, _, hk, _⟩
    · exact hnew _ (h.bgn _ hm rfl).1 rfl
    · simp [beginEvent] at hk
  -- the final timeline
  have hmem : ∀ e, e ∈ tl' ↔ (e = beginEvent d ∨ e ∈ T) ∨ (∃ t, thisEnd d tr = some t ∧ e = ⟨.fin, d, t⟩) := by
    intro e
    rw [← htl]
    cases hte : thisEnd d tr with
    | none => simp [insertOnTimeline, mem_insertEv]
    | some t =>
      simp only [insertOnTimeline, mem_insertEv]
      constructor
      · rintro (h | h | h)
        · exact .inr ⟨t, rfl, h⟩
        · exact .inl (.inl h)
        · exact .inl (.inr h)
      · rintro ((h | h) | ⟨t', ht', h⟩)
        · exact .inr (.inl h)
        · exact .inr (.inr h)
        · injection ht' with ht'; subst ht'; exact .inl h
  have hrel : tl'.Pairwise Rel := by
    rw [← htl]
    cases hte : thisEnd d tr with
    | none => exact hB1
    | some t =>
      refine insertEv_pairwise hB1 ?_ ?_
      · intro x _ hle
        exact ⟨hle, fun hh => by simp at hh⟩
      · intro x hx hlt
        refine ⟨by omega, fun hh => ?_⟩
        simp at hh hlt
        have hbt := (hs.endCand t hte).1
        rcases mem_insertEv.mp hx with rfl | hx
        · simp [beginEvent] at hlt; omega
        · rcases hT.mem x hx with hx | ⟨p, _, hk, _⟩
          · exact hnew _ (h.bgn x hx hh.1).1 hh.2.symm
          · rw [hk] at hh; simp at hh
  have hnodup : tl'.Nodup := by
    rw [← htl]
    cases hte : thisEnd d tr with
    | none => exact hB2
    | some t =>
      refine insertEv_nodup hB2 ?_
      intro hm
      rcases mem_insertEv.mp hm with hm | hm
      · simp [beginEvent] at hm
      · obtain ⟨_, y, hy, h1, h2⟩ := horph _ hm rfl rfl
        obtain ⟨t', ht', hle⟩ := hs.endLe y.cbegin (.inr ⟨y, hy, h1, rfl⟩)
        rw [hte] at ht'; injection ht' with ht'
        simp at h2; omega
  refine ⟨hrel, hnodup, ?_, ?_, ?_, ?_, ?_, ?_, ?_, ?_⟩
  · -- drel
    refine insertDoc_pairwise h.drel ?_ ?_
    · intro x hx hle
      have hne := hnew x hx
      exact ⟨by omega, hs.below x hx (by omega)⟩
    · intro x hx hlt
      exact ⟨hlt, hs.above x hx hlt⟩
  · -- wt
    intro x hx
    rcases mem_insertDoc.mp hx with rfl | hx
    · exact hwt
    · exact h.wt x hx
  · -- bgn
    intro e he hk
    rcases (hmem e).mp he with (rfl | he) | ⟨t, _, rfl⟩
    · exact ⟨mem_insertDoc.mpr (.inl rfl), rfl⟩
    · rcases hT.mem e he with he | ⟨p, _, hk', _⟩
      · exact ⟨mem_insertDoc.mpr (.inr (h.bgn e he hk).1), (h.bgn e he hk).2⟩
      · rw [hk] at hk'; simp at hk'
    · simp at hk
  · -- hasBgn
    intro x hx
    rcases mem_insertDoc.mp hx with rfl | hx
    · exact (hmem _).mpr (.inl (.inl rfl))
    · exact (hmem _).mpr (.inl (.inr (hT.keepBgn _ (h.hasBgn x hx) rfl)))
  · -- hasEnd
    intro x hx t ht
    rcases mem_insertDoc.mp hx with rfl | hx
    · have ht' : Cand docs x t := by
        rcases ht with ht | ⟨y, hy, h1, h2⟩
        · exact .inl ht
        · rcases mem_insertDoc.mp hy with rfl | hy
          · omega
          · exact .inr ⟨y, hy, h1, h2⟩
      obtain ⟨t', hte, hle⟩ := hs.endLe t ht'
      exact ⟨_, (hmem _).mpr (.inr ⟨t', hte, rfl⟩), rfl, rfl, hle⟩
    · have lift : ∀ t, Cand docs x t → ∃ e ∈ tl', e.kind = .fin ∧ e.doc.num = x.num ∧ e.time ≤ t := by
        intro t ht
        obtain ⟨e, he, hk, hn, hle⟩ := h.hasEnd x hx t ht
        obtain ⟨e', he', hk', hn', hle'⟩ := hT.keepEnd e he hk
        exact ⟨e', (hmem _).mpr (.inl (.inr he')), hk', by omega, by omega⟩
      rcases ht with ht | ⟨y, hy, h1, h2⟩
      · exact lift t (.inl ht)
      · rcases mem_insertDoc.mp hy with hyd | hy
        · rw [hyd] at h1 h2
          rcases hs.ended x hx h1 with ⟨e, he, hk, hn, hle⟩ | ⟨p, hp, hpx⟩
          · obtain ⟨e', he', hk', hn', hle'⟩ := hT.keepEnd e he hk
            exact ⟨e', (hmem _).mpr (.inl (.inr he')), hk', by omega, by omega⟩
          · obtain ⟨e, he, hk, hn, hle⟩ := hT.ended p hp
            exact ⟨e, (hmem _).mpr (.inl (.inr he)), hk, by rw [hn, hpx], by omega⟩
        · exact lift t (.inr ⟨y, hy, h1, h2⟩)
  · -- endGe
    intro e he hk x hx hn
    simp only [List.nil_append]
    rcases (hmem e).mp he with (rfl | he) | ⟨t, hte, rfl⟩
    · simp [beginEvent] at hk
    · rcases mem_insertDoc.mp hx with rfl | hx
      · obtain ⟨_, y, hy, h1, h2⟩ := horph e he hk hn.symm
        have := hs.above y hy h1
        exact ⟨by omega, fun _ => ⟨y.cbegin, .inr ⟨y, mem_insertDoc.mpr (.inr hy), h1, rfl⟩, by omega⟩⟩
      · rcases hT.mem e he with he | ⟨p, hp, _, hn', ht⟩
        · obtain ⟨g1, g2⟩ := h.endGe e he hk x hx hn
          refine ⟨g1, fun hex => ?_⟩
          obtain ⟨t, ht, hle⟩ := g2 hex
          refine ⟨t, ?_, hle⟩
          rcases ht with ht | ⟨y, hy, h1, h2⟩
          · exact .inl ht
          · refine .inr ⟨y, mem_insertDoc.mpr ?_, h1, h2⟩
            rcases List.mem_append.mp hy with hy | hy
            · exact .inl (List.mem_singleton.mp hy)
            · exact .inr hy
        · obtain ⟨hpm, _, hplt, _, _⟩ := hs.prev p hp
          have hxp : x = p.doc := drel_eq h.drel hx hpm (by omega)
          have := hs.below _ hpm hplt
          subst hxp
          exact ⟨by omega, fun _ => ⟨d.cbegin, .inr ⟨d, mem_insertDoc.mpr (.inl rfl), hplt, rfl⟩, by omega⟩⟩
    · simp at hn
      rcases mem_insertDoc.mp hx with rfl | hx
      · obtain ⟨g1, g2⟩ := hs.endCand t hte
        refine ⟨g1, fun _ => ⟨t, ?_, by simp⟩⟩
        rcases g2 with g2 | ⟨y, hy, h1, h2⟩
        · exact .inl g2
        · exact .inr ⟨y, mem_insertDoc.mpr (.inr hy), h1, h2⟩
      · exact absurd hn (hnew x hx)
  · -- orphans
    intro e he hk
    simp only [List.nil_append]
    rcases (hmem e).mp he with (rfl | he) | ⟨t, hte, rfl⟩
    · simp [beginEvent] at hk
    · rcases hT.mem e he with he | ⟨p, hp, _, hn', ht⟩
      · rcases h.orph e he hk with ⟨x, hx, hn⟩ | ⟨D, hD, h1, h2⟩
        · exact .inl ⟨x, mem_insertDoc.mpr (.inr hx), hn⟩
        · refine .inr ⟨D, mem_insertDoc.mpr ?_, h1, h2⟩
          rcases List.mem_append.mp hD with hD | hD
          · exact .inl (List.mem_singleton.mp hD)
          · exact .inr hD
      · have hpp := hs.prev p hp
        have := hs.below _ hpp.1 hpp.2.2.1
        exact .inl ⟨p.doc, mem_insertDoc.mpr (.inr hpp.1), hn'.symm, .inr (by omega)⟩
    · exact .inl ⟨d, mem_insertDoc.mpr (.inl rfl), rfl, .inl rfl⟩
  · -- pos
    intro e he hk
    rcases (hmem e).mp he with (rfl | he) | ⟨t, hte, rfl⟩
    · simp [beginEvent] at hk
    · rcases hT.mem e he with he | ⟨p, hp, _, hn', ht⟩
      · exact h.pos e he hk
      · have hpp := hs.prev p hp
        have := hs.below _ hpp.1 hpp.2.2.1
        have := (h.wt _ hpp.1).1
        omega
    · show 0 < t
      rcases (hs.endCand t hte).2 with hc | ⟨y, hy, h1, h2⟩
      · exact (hwt.2 t hc).2
      · have := hs.above y hy h1
        have := hwt.1
        omega

end Verif.Seq
