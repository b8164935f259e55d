import Verif.Seq.Spec

/-! Helper lemmas and the representation invariant of the document sequence. -/
namespace Verif.Seq

/-! ### Order relation on events -/

/-- Adjacent-independent order of two events on a timeline: sorted by time, and the end of a
document never stands before its begin. -/
def Rel (a b : Event) : Prop :=
  a.time ≤ b.time ∧ ¬(a.kind = .fin ∧ b.kind = .bgn ∧ a.doc.num = b.doc.num)

theorem mem_insertEv {x e : Event} {l : List Event} : x ∈ insertEv e l ↔ x = e ∨ x ∈ l := by
  induction l with
  | nil => simp [insertEv]
  | cons y ys ih =>
    simp only [insertEv]
    split
    · simp
    · simp only [List.mem_cons, ih]
      constructor
      · rintro (h | h | h)
        · exact .inr (.inl h)
        · exact .inl h
        · exact .inr (.inr h)
      · rintro (h | h | h)
        · exact .inr (.inl h)
        · exact .inl h
        · exact .inr (.inr h)

theorem insertEv_perm (e : Event) (l : List Event) : (insertEv e l).Perm (e :: l) := by
  induction l with
  | nil => simp [insertEv]
  | cons y ys ih =>
    simp only [insertEv]
    split
    · exact List.Perm.refl _
    · exact (List.Perm.cons y ih).trans (List.Perm.swap e y ys)

theorem insertEv_nodup {e : Event} {l : List Event} (h : l.Nodup) (he : e ∉ l) :
    (insertEv e l).Nodup :=
  (insertEv_perm e l).nodup_iff.mpr (List.nodup_cons.mpr ⟨he, h⟩)

theorem insertEv_pairwise {e : Event} {l : List Event} (h : l.Pairwise Rel)
    (h1 : ∀ x ∈ l, x.time ≤ e.time → Rel x e) (h2 : ∀ x ∈ l, e.time < x.time → Rel e x) :
    (insertEv e l).Pairwise Rel := by
  induction l with
  | nil => simp [insertEv]
  | cons y ys ih =>
    rw [List.pairwise_cons] at h
    simp only [insertEv]
    split
    · rename_i hlt
      rw [List.pairwise_cons, List.pairwise_cons]
      refine ⟨?_, h.1, h.2⟩
      intro z hz
      refine h2 z hz ?_
      rcases List.mem_cons.mp hz with rfl | hz
      · exact hlt
      · have := (h.1 z hz).1
        omega
    · rename_i hlt
      rw [List.pairwise_cons]
      refine ⟨?_, ih h.2 (fun x hx => h1 x (List.mem_cons_of_mem _ hx))
        (fun x hx => h2 x (List.mem_cons_of_mem _ hx))⟩
      intro z hz
      rcases mem_insertEv.mp hz with rfl | hz
      · exact h1 y List.mem_cons_self (by omega)
      · exact h.1 z hz

theorem mem_insertDoc {x d : Doc} {l : List Doc} : x ∈ insertDoc d l ↔ x = d ∨ x ∈ l := by
  induction l with
  | nil => simp [insertDoc]
  | cons y ys ih =>
    simp only [insertDoc]
    split
    · simp
    · simp only [List.mem_cons, ih]
      constructor
      · rintro (h | h | h)
        · exact .inr (.inl h)
        · exact .inl h
        · exact .inr (.inr h)
      · rintro (h | h | h)
        · exact .inr (.inl h)
        · exact .inl h
        · exact .inr (.inr h)

/-- Order of the held documents: numbers and begins increase together. -/
def DRel (a b : Doc) : Prop := a.num < b.num ∧ a.cbegin < b.cbegin

theorem insertDoc_pairwise {d : Doc} {l : List Doc} (h : l.Pairwise DRel)
    (h1 : ∀ x ∈ l, x.num ≤ d.num → DRel x d) (h2 : ∀ x ∈ l, d.num < x.num → DRel d x) :
    (insertDoc d l).Pairwise DRel := by
  induction l with
  | nil => simp [insertDoc]
  | cons y ys ih =>
    rw [List.pairwise_cons] at h
    simp only [insertDoc]
    split
    · rename_i hlt
      rw [List.pairwise_cons, List.pairwise_cons]
      refine ⟨?_, h.1, h.2⟩
      intro z hz
      refine h2 z hz ?_
      rcases List.mem_cons.mp hz with rfl | hz
      · exact hlt
      · have := (h.1 z hz).1
        omega
    · rename_i hlt
      rw [List.pairwise_cons]
      refine ⟨?_, ih h.2 (fun x hx => h1 x (List.mem_cons_of_mem _ hx))
        (fun x hx => h2 x (List.mem_cons_of_mem _ hx))⟩
      intro z hz
      rcases mem_insertDoc.mp hz with rfl | hz
      · exact h1 y List.mem_cons_self (by omega)
      · exact h.1 z hz

/-- In a `DRel` ordered list the documents are determined by, and ordered by, number. -/
theorem drel_cases {l : List Doc} (h : l.Pairwise DRel) {x y : Doc} (hx : x ∈ l) (hy : y ∈ l) :
    x = y ∨ DRel x y ∨ DRel y x := by
  induction l with
  | nil => simp at hx
  | cons z zs ih =>
    rw [List.pairwise_cons] at h
    rcases List.mem_cons.mp hx with hxz | hx
    · rcases List.mem_cons.mp hy with hyz | hy
      · exact .inl (hxz.trans hyz.symm)
      · exact .inr (.inl (hxz ▸ h.1 _ hy))
    · rcases List.mem_cons.mp hy with hyz | hy
      · exact .inr (.inr (hyz ▸ h.1 _ hx))
      · exact ih h.2 hx hy

theorem drel_num_lt {l : List Doc} (h : l.Pairwise DRel) {x y : Doc} (hx : x ∈ l) (hy : y ∈ l) :
    x.num < y.num ↔ x.cbegin < y.cbegin := by
  rcases drel_cases h hx hy with rfl | h | h
  · omega
  · exact ⟨fun _ => h.2, fun _ => h.1⟩
  · constructor
    · intro h'; have := h.1; omega
    · intro h'; have := h.2; omega

theorem drel_eq {l : List Doc} (h : l.Pairwise DRel) {x y : Doc} (hx : x ∈ l) (hy : y ∈ l)
    (hn : x.num = y.num) : x = y := by
  rcases drel_cases h hx hy with rfl | h | h
  · rfl
  · have := h.1; omega
  · have := h.1; omega

theorem existsNum_iff {l : List Doc} (h : l.Pairwise DRel) (n : Nat) :
    existsNum l n = true ↔ ∃ x ∈ l, x.num = n := by
  induction l with
  | nil => simp [existsNum]
  | cons y ys ih =>
    rw [List.pairwise_cons] at h
    unfold existsNum at ih ⊢
    by_cases hlt : y.num < n
    · rw [List.dropWhile_cons_of_pos (by simpa using hlt)]
      rw [ih h.2]
      constructor
      · rintro ⟨x, hx, rfl⟩; exact ⟨x, List.mem_cons_of_mem _ hx, rfl⟩
      · rintro ⟨x, hx, rfl⟩
        rcases List.mem_cons.mp hx with rfl | hx
        · omega
        · exact ⟨x, hx, rfl⟩
    · rw [List.dropWhile_cons_of_neg (by simpa using hlt)]
      simp only [beq_iff_eq]
      constructor
      · intro h'; exact ⟨y, List.mem_cons_self, h'⟩
      · rintro ⟨x, hx, rfl⟩
        rcases List.mem_cons.mp hx with rfl | hx
        · rfl
        · have := (h.1 x hx).1
          omega

/-! ### The invariant -/

/-- `t` is a reason for `x` to end: its own computed end, or the begin of a later document. -/
def Cand (docs : List Doc) (x : Doc) (t : Int) : Prop :=
  x.cend = some t ∨ ∃ y ∈ docs, x.num < y.num ∧ y.cbegin = t

/-- Invariant relating the held documents and the timeline.  `ext` are further documents that
may count as reasons (the one about to be inserted); `ex` switches on exactness of ends. -/
structure Core (ex : Prop) (ext docs : List Doc) (tl : List Event) : Prop where
  rel : tl.Pairwise Rel
  nodup : tl.Nodup
  drel : docs.Pairwise DRel
  wt : ∀ d ∈ docs, WellTimed d
  bgn : ∀ e ∈ tl, e.kind = .bgn → e.doc ∈ docs ∧ e = beginEvent e.doc
  hasBgn : ∀ d ∈ docs, beginEvent d ∈ tl
  hasEnd : ∀ x ∈ docs, ∀ t, Cand docs x t →
    ∃ e ∈ tl, e.kind = .fin ∧ e.doc.num = x.num ∧ e.time ≤ t
  endGe : ∀ e ∈ tl, e.kind = .fin → ∀ x ∈ docs, x.num = e.doc.num →
    x.cbegin ≤ e.time ∧ (ex → ∃ t, Cand (ext ++ docs) x t ∧ t ≤ e.time)
  orph : ∀ e ∈ tl, e.kind = .fin →
    (∃ x ∈ docs, x.num = e.doc.num ∧ (e.doc = x ∨ x.cbegin < e.time)) ∨
    ∃ D ∈ ext ++ docs, e.doc.num < D.num ∧ D.cbegin < e.time
  pos : ∀ e ∈ tl, e.kind = .fin → 0 < e.time

theorem Core.empty (ex : Prop) : Core ex [] [] [] := by
  constructor <;> simp

theorem Core.widen {ex : Prop} {docs : List Doc} {tl : List Event} (h : Core ex [] docs tl)
    (d : Doc) : Core ex [d] docs tl := by
  refine ⟨h.rel, h.nodup, h.drel, h.wt, h.bgn, h.hasBgn, h.hasEnd, ?_, ?_, h.pos⟩
  · intro e he hk x hx hn
    refine ⟨(h.endGe e he hk x hx hn).1, fun hex => ?_⟩
    obtain ⟨t, ht, hle⟩ := (h.endGe e he hk x hx hn).2 hex
    refine ⟨t, ?_, hle⟩
    rcases ht with ht | ⟨y, hy, h1, h2⟩
    · exact .inl ht
    · exact .inr ⟨y, by simp at hy ⊢; exact .inr hy, h1, h2⟩
  · intro e he hk
    rcases h.orph e he hk with h' | ⟨D, hD, h1, h2⟩
    · exact .inl h'
    · exact .inr ⟨D, by simp at hD ⊢; exact .inr hD, h1, h2⟩

/-! ### The scans -/

/-- What the backward scan found when it did not raise. -/
theorem scanBack_ok {n : Nat} {L : List Event} : ∀ {ef : Option Doc} {bb : Option Event},
    scanBack n ef L = .ok bb →
    ((∀ e ∈ L, e.kind = .fin ∧ e.doc.num ≤ n) ∧ bb = none) ∨
    ∃ pre p post, L = pre ++ p :: post ∧ (∀ e ∈ pre, e.kind = .fin ∧ e.doc.num ≤ n) ∧
      p.kind = .bgn ∧ p.doc.num ≤ n ∧
      ((bb = some p ∧ (∀ e ∈ pre, e.doc.num ≠ p.doc.num) ∧ ∀ x, ef = some x → x.num ≠ p.doc.num) ∨
       (bb = none ∧ ((∃ e ∈ pre, e.doc.num = p.doc.num) ∨ ∃ x, ef = some x ∧ x.num = p.doc.num))) := by
  induction L with
  | nil => intro ef bb h; simp [scanBack] at h; exact .inl ⟨by simp, h.symm⟩
  | cons it rest ih =>
    intro ef bb h
    unfold scanBack at h
    split at h
    · simp at h
    rename_i hn
    split at h
    · rename_i hk
      refine .inr ⟨[], it, rest, rfl, by simp, hk, by omega, ?_⟩
      split at h
      · injection h with h; exact .inl ⟨h.symm, by simp, by simp⟩
      · split at h
        · rename_i x hx
          injection h with h
          exact .inl ⟨h.symm, by simp, by simp; exact hx⟩
        · rename_i x hx
          injection h with h
          refine .inr ⟨h.symm, .inr ⟨x, rfl, by simpa using hx⟩⟩
    · rename_i hk
      split at h
      · simp at h
      · rcases ih h with ⟨h1, h2⟩ | ⟨pre, p, post, hL, hpre, hpk, hpn, hor⟩
        · refine .inl ⟨?_, h2⟩
          intro e he
          rcases List.mem_cons.mp he with rfl | he
          · exact ⟨hk, by omega⟩
          · exact h1 e he
        · refine .inr ⟨it :: pre, p, post, by simp [hL], ?_, hpk, hpn, ?_⟩
          · intro e he
            rcases List.mem_cons.mp he with rfl | he
            · exact ⟨hk, by omega⟩
            · exact hpre e he
          · rcases hor with ⟨hbb, hA, hB⟩ | ⟨hbb, hA⟩
            · refine .inl ⟨hbb, ?_, by simp⟩
              intro e he
              rcases List.mem_cons.mp he with rfl | he
              · exact hB _ rfl
              · exact hA e he
            · refine .inr ⟨hbb, .inl ?_⟩
              rcases hA with ⟨e, he, h'⟩ | ⟨x, hx, h'⟩
              · exact ⟨e, List.mem_cons_of_mem _ he, h'⟩
              · injection hx with hx; subst hx
                exact ⟨it, List.mem_cons_self, h'⟩

/-- What the backward scan found when it discards the document. -/
theorem scanBack_discarded {n : Nat} {L : List Event} : ∀ {ef : Option Doc} {x : Doc},
    scanBack n ef L = .discarded x → ∃ e ∈ L, e.doc = x ∧ n < x.num := by
  induction L with
  | nil => intro ef x h; simp [scanBack] at h
  | cons it rest ih =>
    intro ef x h
    unfold scanBack at h
    split at h
    · rename_i hn
      injection h with h
      exact ⟨it, List.mem_cons_self, h, by subst h; omega⟩
    split at h
    · split at h
      · simp at h
      · split at h <;> simp at h
    · split at h
      · simp at h
      · obtain ⟨e, he, h1, h2⟩ := ih h
        exact ⟨e, List.mem_cons_of_mem _ he, h1, h2⟩

/-- What the forward scan found when it did not raise. -/
theorem scanFwd_ok {d : Doc} {bb : Option Event} {L : List Event} (hd : ∀ e ∈ L, e.kind = .bgn →
    e.doc.num ≠ d.num) : ∀ {ea0 ea tr : Option Event},
    scanFwd d bb ea0 L = .ok ea tr →
    ∃ pre post, L = pre ++ post ∧ (∀ e ∈ pre, e.kind = .fin) ∧
      (∀ p, bb = some p → ∀ e ∈ pre, e.doc.num = p.doc.num ∨ e.time = p.time) ∧
      ((pre = [] ∧ ea = ea0) ∨ ∃ e ∈ pre, ea = some e) ∧
      ((post = [] ∧ tr = none) ∨
       ∃ it rest c, post = it :: rest ∧ it.kind = .bgn ∧ d.num < it.doc.num ∧ d.cend = some c ∧
        ((it.time < c ∧ tr = some it) ∨ (c ≤ it.time ∧ tr = none))) := by
  induction L with
  | nil =>
    intro ea0 ea tr h
    simp [scanFwd] at h
    exact ⟨[], [], rfl, by simp, by simp, .inl ⟨rfl, h.1.symm⟩, .inl ⟨rfl, h.2.symm⟩⟩
  | cons it rest ih =>
    intro ea0 ea tr h
    have hd' : ∀ e ∈ rest, e.kind = .bgn → e.doc.num ≠ d.num :=
      fun e he => hd e (List.mem_cons_of_mem _ he)
    have key : it.kind = .fin → (∀ p, bb = some p → it.doc.num = p.doc.num ∨ it.time = p.time) →
        scanFwd d bb (some it) rest = .ok ea tr →
        ∃ pre post, it :: rest = pre ++ post ∧ (∀ e ∈ pre, e.kind = .fin) ∧
        (∀ p, bb = some p → ∀ e ∈ pre, e.doc.num = p.doc.num ∨ e.time = p.time) ∧
        ((pre = [] ∧ ea = ea0) ∨ ∃ e ∈ pre, ea = some e) ∧
        ((post = [] ∧ tr = none) ∨
        ∃ it rest c, post = it :: rest ∧ it.kind = .bgn ∧ d.num < it.doc.num ∧ d.cend = some c ∧
          ((it.time < c ∧ tr = some it) ∨ (c ≤ it.time ∧ tr = none))) := by
      intro hk hp h
      obtain ⟨pre, post, hL, h1, h2, h3, h4⟩ := ih hd' h
      refine ⟨it :: pre, post, by simp [hL], ?_, ?_, .inr ?_, h4⟩
      · intro e he
        rcases List.mem_cons.mp he with rfl | he
        · exact hk
        · exact h1 e he
      · intro p hp' e he
        rcases List.mem_cons.mp he with rfl | he
        · exact hp p hp'
        · exact h2 p hp' e he
      · rcases h3 with ⟨_, h3⟩ | ⟨e, he, h3⟩
        · exact ⟨it, List.mem_cons_self, h3⟩
        · exact ⟨e, List.mem_cons_of_mem _ he, h3⟩
    unfold scanFwd at h
    split at h
    · rename_i hk
      split at h
      · split at h
        · simp at h
        · rename_i p hp
          refine key hk ?_ h
          intro p' hp'
          injection hp' with hp'
          subst hp'
          by_cases hh : it.doc.num = p.doc.num
          · exact .inl hh
          · right
            by_cases hh' : it.time = p.time
            · exact hh'
            · exact absurd ⟨hh, hh'⟩ hp
      · exact key hk (by simp) h
    · rename_i hk
      split at h
      · simp at h
      split at h
      · rename_i hlt
        split at h
        · simp at h
        · rename_i c hc
          refine ⟨[], it :: rest, rfl, by simp, by simp, ?_, .inr ⟨it, rest, c, rfl, hk, hlt, hc, ?_⟩⟩
          · split at h <;> (injection h with h _; exact .inl ⟨rfl, h.symm⟩)
          · split at h
            · rename_i hgt; injection h with _ h; exact .inl ⟨by omega, h.symm⟩
            · rename_i hgt; injection h with _ h; exact .inr ⟨by omega, h.symm⟩
      · have := hd it List.mem_cons_self hk
        omega

end Verif.Seq
