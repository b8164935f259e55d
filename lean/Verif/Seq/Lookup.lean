import Verif.Seq.Reach

/-! `lookup_range_on_timeline`, `discard_before` and the windows of `extract_segment`. -/
namespace Verif.Seq

/-! ### Begin events in order are the documents in order -/

theorem drel_ext {l₁ l₂ : List Doc} (h₁ : l₁.Pairwise DRel) (h₂ : l₂.Pairwise DRel)
    (h : ∀ x, x ∈ l₁ ↔ x ∈ l₂) : l₁ = l₂ := by
  induction l₁ generalizing l₂ with
  | nil =>
    cases l₂ with
    | nil => rfl
    | cons y ys => have := (h y).mpr List.mem_cons_self; simp at this
  | cons x xs ih =>
    cases l₂ with
    | nil => have := (h x).mp List.mem_cons_self; simp at this
    | cons y ys =>
      rw [List.pairwise_cons] at h₁ h₂
      have hxy : x = y := by
        rcases List.mem_cons.mp ((h x).mp List.mem_cons_self) with h' | h'
        · exact h'
        · rcases List.mem_cons.mp ((h y).mpr List.mem_cons_self) with h'' | h''
          · exact h''.symm
          · have := (h₂.1 x h').1; have := (h₁.1 y h'').1; omega
      subst hxy
      congr 1
      apply ih h₁.2 h₂.2
      intro z
      constructor
      · intro hz
        rcases List.mem_cons.mp ((h z).mp (List.mem_cons_of_mem _ hz)) with h' | h'
        · subst h'; have := (h₁.1 z hz).1; omega
        · exact h'
      · intro hz
        rcases List.mem_cons.mp ((h z).mpr (List.mem_cons_of_mem _ hz)) with h' | h'
        · subst h'; have := (h₂.1 z hz).1; omega
        · exact h'

/-- Documents whose begin event is in the list and not at the upper end of the range. -/
def begun (hi : Option Int) (L : List Event) : List Doc :=
  (L.filter (fun e => e.kind == .bgn && (some e.time != hi))).map (·.doc)

/-- The list holds an end event of the number up to the lower end of the range. -/
def ended (lo : Option Int) (L : List Event) (n : Nat) : Bool :=
  match lo with
  | none => false
  | some b => L.any (fun e => e.kind == .fin && decide (e.time ≤ b) && e.doc.num == n)

theorem eraseP_eq_filter {l : List Doc} (h : l.Pairwise (fun a b => a.num ≠ b.num)) (n : Nat) :
    l.eraseP (fun x => x.num == n) = l.filter (fun x => x.num != n) := by
  induction l with
  | nil => rfl
  | cons x xs ih =>
    rw [List.pairwise_cons] at h
    by_cases hx : x.num = n
    · rw [List.eraseP_cons_of_pos (by simpa using hx), List.filter_cons_of_neg (by simpa using hx)]
      symm
      rw [List.filter_eq_self]
      intro y hy
      have := h.1 y hy
      simp; omega
    · rw [List.eraseP_cons_of_neg (by simpa using hx), List.filter_cons_of_pos (by simpa using hx), ih h.2]

theorem lookupLoop_eq (lo hi : Option Int) : ∀ (L : List Event) (acc : List Doc),
    L.Pairwise Rel → (acc ++ begun hi L).Pairwise (fun a b => a.num ≠ b.num) →
    lookupLoop lo hi acc L = (acc ++ begun hi L).filter (fun x => !ended lo L x.num) := by
  intro L
  induction L with
  | nil =>
    intro acc _ _
    have : ∀ n, ended lo [] n = false := by intro n; cases lo <;> simp [ended]
    simp only [lookupLoop, begun, this, List.filter_nil, List.map_nil, List.append_nil, Bool.not_false]
    exact (List.filter_eq_self.mpr (fun _ _ => rfl)).symm
  | cons it rest ih =>
    intro acc hrel hdist
    rw [List.pairwise_cons] at hrel
    unfold lookupLoop
    split
    · rename_i hk
      have hend : ∀ n, ended lo (it :: rest) n = ended lo rest n := by
        intro n; cases lo <;> simp [ended, hk]
      simp only [hend]
      split
      · rename_i hne
        have hb : begun hi (it :: rest) = it.doc :: begun hi rest := by simp [begun, hk, hne]
        rw [hb] at hdist ⊢
        rw [ih (acc ++ [it.doc]) hrel.2 (by simpa using hdist)]
        simp
      · rename_i hne
        have hne : some it.time = hi := by simpa using hne
        have hb : begun hi (it :: rest) = begun hi rest := by simp [begun, hne]
        rw [hb] at hdist ⊢
        rw [ih acc hrel.2 hdist]
    · rename_i hk
      have hb : begun hi (it :: rest) = begun hi rest := by simp [begun, hk]
      rw [hb] at hdist ⊢
      split
      · rename_i b
        split
        · rename_i hle
          have hacc : acc.Pairwise (fun a b => a.num ≠ b.num) := (List.pairwise_append.mp hdist).1
          rw [eraseP_eq_filter hacc]
          rw [ih _ hrel.2 (List.Pairwise.sublist
            (List.Sublist.append List.filter_sublist (List.Sublist.refl _)) hdist)]
          have hrest : (begun hi rest).filter (fun x => x.num != it.doc.num) = begun hi rest := by
            rw [List.filter_eq_self]
            intro x hx
            simp only [begun, List.mem_map, List.mem_filter] at hx
            obtain ⟨e, ⟨he, hke⟩, rfl⟩ := hx
            simp at hke
            have := (hrel.1 e he).2
            simp
            intro hn
            exact this ⟨hk, hke.1, hn.symm⟩
          rw [← hrest, ← List.filter_append, hrest, List.filter_filter]
          apply List.filter_congr
          intro x _
          have hhead : (it.doc.num == x.num) = (x.num == it.doc.num) := by
            by_cases hh : x.num = it.doc.num
            · simp [hh]
            · have : it.doc.num ≠ x.num := fun h => hh h.symm
              rw [beq_eq_false_iff_ne.mpr hh, beq_eq_false_iff_ne.mpr this]
          simp only [ended, List.any_cons, hk, hle, decide_true, Bool.true_and, beq_self_eq_true, hhead,
            bne, Bool.not_or]
          rw [Bool.and_comm]
        · rename_i hle
          rw [ih acc hrel.2 hdist]
          apply List.filter_congr
          intro x _
          simp [ended, hle]
      · rw [ih acc hrel.2 hdist]
        apply List.filter_congr
        intro x _
        simp [ended]

theorem begun_eq {ex : Prop} {ext docs : List Doc} {tl : List Event} (h : Core ex ext docs tl)
    (hi : Option Int) :
    begun hi (upTo hi tl) = docs.filter (fun x => match hi with
      | none => true | some t => decide (x.cbegin < t)) := by
  have hmem : ∀ x, x ∈ begun hi (upTo hi tl) ↔ x ∈ docs ∧ (∀ t, hi = some t → x.cbegin < t) := by
    intro x
    simp only [begun, List.mem_map, List.mem_filter]
    constructor
    · rintro ⟨e, ⟨he, hk⟩, rfl⟩
      simp at hk
      have het : e ∈ tl := by
        cases hi with
        | none => exact he
        | some t => exact (List.mem_filter.mp he).1
      obtain ⟨g1, g2⟩ := h.bgn e het hk.1
      refine ⟨g1, ?_⟩
      intro t ht
      subst ht
      have hle := (List.mem_filter.mp he).2
      have : e.time = e.doc.cbegin := by rw [g2]; rfl
      simp at hle
      have := hk.2
      simp at this
      omega
    · rintro ⟨hx, ht⟩
      refine ⟨beginEvent x, ⟨?_, ?_⟩, rfl⟩
      · cases hi with
        | none => exact h.hasBgn x hx
        | some t =>
          have := ht t rfl
          exact List.mem_filter.mpr ⟨h.hasBgn x hx, decide_eq_true (by simp [beginEvent]; omega)⟩
      · cases hi with
        | none => simp [beginEvent]
        | some t => have := ht t rfl; simp [beginEvent]; omega
  have hsub : (upTo hi tl).Sublist tl := by
    cases hi with
    | none => exact List.Sublist.refl _
    | some t => exact List.filter_sublist
  apply drel_ext
  · unfold begun
    rw [List.pairwise_map]
    have hs : ((upTo hi tl).filter (fun e => e.kind == .bgn && (some e.time != hi))).Sublist tl :=
      List.filter_sublist.trans hsub
    have hp : tl.Pairwise (fun a b => Rel a b ∧ a ≠ b) := h.rel.and h.nodup
    refine (hp.sublist hs).imp_of_mem ?_
    intro a b ha hb hab
    have ha' := List.mem_filter.mp ha
    have hb' := List.mem_filter.mp hb
    simp at ha' hb'
    obtain ⟨a1, a2⟩ := h.bgn a (hsub.subset ha'.1) ha'.2.1
    obtain ⟨b1, b2⟩ := h.bgn b (hsub.subset hb'.1) hb'.2.1
    rcases drel_cases h.drel a1 b1 with heq | hr | hr
    · exact absurd (by rw [a2, b2, heq]) hab.2
    · exact hr
    · have h1 : a.time = a.doc.cbegin := by rw [a2]; rfl
      have h2 : b.time = b.doc.cbegin := by rw [b2]; rfl
      have := hr.2; have := hab.1.1
      omega
  · exact h.drel.filter _
  · intro x
    rw [hmem]
    simp only [List.mem_filter]
    cases hi with
    | none => simp
    | some t => simp

theorem ended_iff {lo hi : Option Int} {tl : List Event} {n : Nat}
    (hlh : ∀ a b, lo = some a → hi = some b → a ≤ b) :
    ended lo (upTo hi tl) n = true ↔
      ∃ b, lo = some b ∧ ∃ e ∈ tl, e.kind = .fin ∧ e.time ≤ b ∧ e.doc.num = n := by
  cases lo with
  | none => simp [ended]
  | some b =>
    have hb : ∀ t, hi = some t → b ≤ t := fun t ht => hlh b t rfl ht
    have hup : ∀ e, e.time ≤ b → (e ∈ upTo hi tl ↔ e ∈ tl) := by
      intro e he
      cases hi with
      | none => exact Iff.rfl
      | some t =>
        have := hb t rfl
        simp only [upTo, List.mem_filter]
        constructor
        · exact fun h => h.1
        · exact fun h => ⟨h, decide_eq_true (by omega)⟩
    simp only [ended, List.any_eq_true, Bool.and_eq_true, beq_iff_eq, decide_eq_true_eq]
    constructor
    · rintro ⟨e, he, ⟨hk, ht⟩, hn⟩
      exact ⟨b, rfl, e, (hup e ht).mp he, hk, ht, hn⟩
    · rintro ⟨b', hb', e, he, hk, ht, hn⟩
      injection hb' with hb'; subst hb'
      exact ⟨e, (hup e ht).mpr he, ⟨hk, ht⟩, hn⟩

/-- The held documents shown somewhere in the range. -/
theorem lookupRange_eq {ex : Prop} {s : State} (h : Core ex [] s.docs s.timeline)
    {lo hi : Option Int} (hlh : ∀ a b, lo = some a → hi = some b → a ≤ b) :
    lookupRange s.timeline lo hi = s.docs.filter (fun x =>
      (match hi with | none => true | some t => decide (x.cbegin < t)) &&
      (match lo, seqResolvedEnd s x with
        | some b, some (some e) => decide (b < e)
        | _, _ => true)) := by
  unfold lookupRange
  have hrel : (upTo hi s.timeline).Pairwise Rel := by
    cases hi with
    | none => exact h.rel
    | some t => exact h.rel.filter _
  rw [lookupLoop_eq lo hi _ _ hrel]
  · rw [List.nil_append, begun_eq h, List.filter_filter]
    apply List.filter_congr
    intro x hx
    rw [Bool.and_comm]
    congr 1
    obtain ⟨r, hr, _, h2, h3⟩ := seqResolvedEnd_eq h hx
    rw [hr]
    have hiff := ended_iff (tl := s.timeline) (n := x.num) hlh
    cases lo with
    | none => simp [ended]
    | some b =>
      cases r with
      | none =>
        have : ended (some b) (upTo hi s.timeline) x.num = false := by
          rw [Bool.eq_false_iff]
          intro hc
          obtain ⟨b', _, e, he, hk, _, hn⟩ := hiff.mp hc
          exact h3 rfl e he hk hn
        simp [this]
      | some t =>
        obtain ⟨_, _, ⟨e, he, hk, hn, het⟩, hmin, _⟩ := h2 t rfl
        by_cases hbt : b < t
        · have : ended (some b) (upTo hi s.timeline) x.num = false := by
            rw [Bool.eq_false_iff]
            intro hc
            obtain ⟨b', hb', e', he', hk', ht', hn'⟩ := hiff.mp hc
            injection hb' with hb'
            have := hmin e' he' hk' hn'
            omega
          simp [this, hbt]
        · have : ended (some b) (upTo hi s.timeline) x.num = true :=
            hiff.mpr ⟨b, rfl, e, he, hk, by omega, hn⟩
          simp [this, hbt]
  · rw [List.nil_append, begun_eq h]
    refine (h.drel.filter _).imp ?_
    intro a b hab
    have := hab.1
    omega

/-! ### Monotone resolved ends -/

theorem end_le_next {ex : Prop} {s : State} (h : Core ex [] s.docs s.timeline) {x y : Doc}
    (hx : x ∈ s.docs) (hy : y ∈ s.docs) (hlt : x.num < y.num) :
    ∃ t, seqResolvedEnd s x = some (some t) ∧ t ≤ y.cbegin := by
  obtain ⟨r, hr, h1, _⟩ := seqResolvedEnd_eq h hx
  obtain ⟨t, ht, hle⟩ := h1 y.cbegin (.inr ⟨y, hy, hlt, rfl⟩)
  exact ⟨t, by rw [hr, ht], hle⟩

end Verif.Seq
