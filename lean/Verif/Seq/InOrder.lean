import Verif.Seq.Lookup

/-!
C08: when does `add_document` never fail unexpectedly?  Helper lemmas for the in-order histories
and for separated documents; the property theorems are in `Verif.Seq.NoFail`.
-/
namespace Verif.Seq

/-- Every end event immediately follows the begin event of its document. -/
def Alt (tl : List Event) : Prop :=
  ∀ l e r, tl = l ++ e :: r → e.kind = .fin → ∃ l' a, l = l' ++ [a] ∧ a.kind = .bgn ∧ a.doc = e.doc

theorem Alt.nil : Alt [] := by
  intro l e r h; simp at h

theorem Alt.prefix {a b : List Event} (h : Alt (a ++ b)) : Alt a := by
  intro l e r hl hk
  exact h l e (r ++ b) (by rw [hl]; simp) hk

theorem snoc_cases {α : Type} (l : List α) : l = [] ∨ ∃ l' a, l = l' ++ [a] := by
  rcases List.eq_nil_or_concat l with h | ⟨l', a, h⟩
  · exact .inl h
  · exact .inr ⟨l', a, by simpa using h⟩

theorem Alt.snoc {l : List Event} {e : Event} (h : Alt l)
    (he : e.kind = .fin → ∃ l' a, l = l' ++ [a] ∧ a.kind = .bgn ∧ a.doc = e.doc) : Alt (l ++ [e]) := by
  intro l1 x r hl hk
  rcases snoc_cases r with rfl | ⟨r', z, rfl⟩
  · obtain ⟨h1, h2⟩ := List.append_inj' hl rfl
    injection h2 with h2
    subst h1; subst h2
    exact he hk
  · have : l ++ [e] = (l1 ++ x :: r') ++ [z] := by rw [hl]; simp
    obtain ⟨h1, _⟩ := List.append_inj' this rfl
    exact h l1 x r' h1 hk

theorem Alt.suffix {l : List Event} {b : Event} {r : List Event} (h : Alt (l ++ b :: r))
    (hb : b.kind = .bgn) : Alt (b :: r) := by
  intro l1 e r1 hl hk
  cases l1 with
  | nil =>
    simp only [List.nil_append, List.cons.injEq] at hl
    rw [← hl.1, hb] at hk
    simp at hk
  | cons x xs =>
    rw [hl] at h
    obtain ⟨l', a, h1, h2, h3⟩ := h (l ++ x :: xs) e r1 (by simp) hk
    rcases snoc_cases (x :: xs) with h0 | ⟨l'', a', h0⟩
    · simp at h0
    · rw [h0, ← List.append_assoc] at h1
      obtain ⟨_, h4⟩ := List.append_inj' h1 rfl
      injection h4 with h4
      subst h4
      exact ⟨l'', a', h0, h2, h3⟩

theorem split_filter {α : Type} {p : α → Bool} : ∀ {l : List α},
    l.Pairwise (fun a b => p b = true → p a = true) → l = l.filter p ++ l.filter (fun x => !p x) := by
  intro l
  induction l with
  | nil => intro _; rfl
  | cons x xs ih =>
    intro h
    rw [List.pairwise_cons] at h
    cases hx : p x with
    | true => simp [hx, ← ih h.2]
    | false =>
      have : ∀ y ∈ xs, p y = false := by
        intro y hy
        cases hy' : p y with
        | false => rfl
        | true => rw [h.1 y hy hy'] at hx; simp at hx
      have h1 : xs.filter p = [] := by
        rw [List.filter_eq_nil_iff]; intro y hy; simp [this y hy]
      have h2 : xs.filter (fun x => !p x) = xs := by
        rw [List.filter_eq_self]; intro y hy; simp [this y hy]
      simp [hx, h1, h2]

theorem insertEv_last {e : Event} : ∀ {l : List Event}, (∀ x ∈ l, x.time ≤ e.time) → insertEv e l = l ++ [e] := by
  intro l
  induction l with
  | nil => intro _; rfl
  | cons x xs ih =>
    intro h
    have := h x List.mem_cons_self
    simp only [insertEv]
    rw [if_neg (by omega), ih (fun y hy => h y (List.mem_cons_of_mem _ hy))]
    rfl

theorem split_lt {tl : List Event} (h : tl.Pairwise Rel) (b : Int) :
    tl = tl.filter (fun x => decide (x.time < b)) ++ tl.filter (fun x => decide (b ≤ x.time)) := by
  have := split_filter (p := fun x : Event => decide (x.time < b)) (l := tl)
    (h.imp (by intro x y hh; simp only [decide_eq_true_eq]; have := hh.1; omega))
  rw [this]
  congr 1
  · rw [← this]
  · rw [← this]
    apply List.filter_congr
    intro x _
    by_cases hx : x.time < b
    · simp [hx]
    · simp [hx]; omega

theorem split_le {tl : List Event} (h : tl.Pairwise Rel) (b : Int) :
    tl = tl.filter (fun x => decide (x.time ≤ b)) ++ tl.filter (fun x => decide (b < x.time)) := by
  have := split_filter (p := fun x : Event => decide (x.time ≤ b)) (l := tl)
    (h.imp (by intro x y hh; simp only [decide_eq_true_eq]; have := hh.1; omega))
  rw [this]
  congr 1
  · rw [← this]
  · rw [← this]
    apply List.filter_congr
    intro x _
    by_cases hx : x.time ≤ b
    · simp [hx]
    · simp [hx]; omega

/-- The backward scan of an alternating timeline never finds an inconsistency. -/
theorem scanBack_alt {n : Nat} {P : List Event} (h : Alt P) (hn : ∀ e ∈ P, e.doc.num ≤ n) :
    (P = [] ∨ ∃ P' z, P = P' ++ [z] ∧ z.kind = .fin) ∧ scanBack n none P.reverse = .ok none ∨
    ∃ P' z, P = P' ++ [z] ∧ z.kind = .bgn ∧ scanBack n none P.reverse = .ok (some z) := by
  rcases snoc_cases P with rfl | ⟨P', z, rfl⟩
  · exact .inl ⟨.inl rfl, rfl⟩
  have hz := hn z (by simp)
  cases hk : z.kind with
  | bgn =>
    refine .inr ⟨P', z, rfl, hk, ?_⟩
    simp only [List.reverse_append, List.reverse_cons, List.reverse_nil, List.nil_append,
      List.singleton_append]
    unfold scanBack
    rw [if_neg (by omega), hk]
  | fin =>
    refine .inl ⟨.inr ⟨P', z, rfl, hk⟩, ?_⟩
    obtain ⟨l', a, h1, h2, h3⟩ := h P' z [] rfl hk
    have ha := hn a (by rw [h1]; simp)
    simp only [List.reverse_append, List.reverse_cons, List.reverse_nil, List.nil_append,
      List.singleton_append, h1]
    unfold scanBack
    rw [if_neg (by omega), hk]
    simp only
    unfold scanBack
    rw [if_neg (by omega), h2]
    simp [h3]

theorem alt_head_two {l : List Event} {f g : Event} {r : List Event} (h : Alt (l ++ f :: g :: r))
    (hf : f.kind = .fin) : g.kind = .bgn := by
  cases hg : g.kind with
  | bgn => rfl
  | fin =>
    obtain ⟨l', a, h1, h2, _⟩ := h (l ++ [f]) g r (by simp) hg
    obtain ⟨_, h4⟩ := List.append_inj' h1 rfl
    injection h4 with h4
    rw [← h4, hf] at h2
    simp at h2

/-- One insertion attempt of the newest document on an alternating timeline. -/
theorem newest_insert {docs : List Doc} {tl : List Event} {d : Doc}
    (hrel : tl.Pairwise Rel) (ha : Alt tl) (hwt : WellTimed d) (hn : ∀ e ∈ tl, e.doc.num < d.num) :
    insertOrDiscard docs tl d = .overridden ∨
    ∃ docs' tl', insertOrDiscard docs tl d = .ok docs' tl' ∧ Alt tl' := by
  have hL := split_lt hrel d.cbegin
  have hP := split_le hrel d.cbegin
  have hsub1 : ∀ x ∈ tl.filter (fun x => decide (x.time < d.cbegin)), x.time < d.cbegin := by
    intro x hx; simpa using (List.mem_filter.mp hx).2
  have hsub2 : ∀ x ∈ tl.filter (fun x => decide (d.cbegin ≤ x.time)), d.cbegin ≤ x.time := by
    intro x hx; simpa using (List.mem_filter.mp hx).2
  have hsub3 : ∀ x ∈ tl.filter (fun x => decide (x.time ≤ d.cbegin)), x.time ≤ d.cbegin := by
    intro x hx; simpa using (List.mem_filter.mp hx).2
  have hsub4 : ∀ x ∈ tl.filter (fun x => decide (d.cbegin < x.time)), d.cbegin < x.time := by
    intro x hx; simpa using (List.mem_filter.mp hx).2
  unfold insertOrDiscard
  generalize tl.filter (fun x => decide (x.time < d.cbegin)) = L at *
  generalize tl.filter (fun x => decide (d.cbegin ≤ x.time)) = S at *
  generalize tl.filter (fun x => decide (x.time ≤ d.cbegin)) = P at *
  generalize tl.filter (fun x => decide (d.cbegin < x.time)) = G at *
  have haP : Alt P := by rw [hP] at ha; exact ha.prefix
  have hnP : ∀ e ∈ P, e.doc.num ≤ d.num := by
    intro e he; have := hn e (by rw [hP]; simp [he]); omega
  have hrelP : P.Pairwise Rel := by
    have := hrel; rw [hP] at this; exact (List.pairwise_append.mp this).1
  have hnS : ∀ e ∈ S, e.doc.num < d.num := fun e he => hn e (by rw [hL]; simp [he])
  have hsb := scanBack_alt haP hnP
  -- the relation between the last event of `P` and the first of `S`
  have hlink : ∀ f r, S = f :: r → f.kind = .fin →
      (f.time = d.cbegin ∧ ∀ P' z, P = P' ++ [z] → z.time = f.time) ∨
      (d.cbegin < f.time ∧ P = L ∧ ∃ L' a, L = L' ++ [a] ∧ a.kind = .bgn ∧ a.doc = f.doc) := by
    intro f r hS hk
    obtain ⟨L', a, h1, h2, h3⟩ := ha L f r (by rw [hL, hS]) hk
    have hle := hsub2 f (by rw [hS]; simp)
    rcases Int.lt_or_le d.cbegin f.time with hlt | hge
    · refine .inr ⟨hlt, ?_, L', a, h1, h2, h3⟩
      have hSG : ∀ x ∈ S, d.cbegin < x.time := by
        intro x hx
        rw [hS] at hx
        rcases List.mem_cons.mp hx with rfl | hx
        · exact hlt
        · have := hrel
          rw [hL, hS] at this
          have := (List.pairwise_cons.mp (List.pairwise_append.mp this).2.1).1 x hx
          have := this.1
          omega
      have hLen : P.length = L.length := by
        have e1 : (tl.filter (fun x => decide (x.time ≤ d.cbegin))).length = P.length := by
          rw [hP, List.filter_append]
          rw [List.filter_eq_self.mpr (fun x hx => decide_eq_true (hsub3 x hx))]
          rw [List.filter_eq_nil_iff.mpr (fun x hx => by have := hsub4 x hx; simp; omega)]
          simp
        have e2 : (tl.filter (fun x => decide (x.time ≤ d.cbegin))).length = L.length := by
          rw [hL, List.filter_append]
          rw [List.filter_eq_self.mpr (fun x hx => decide_eq_true (by have := hsub1 x hx; omega))]
          rw [List.filter_eq_nil_iff.mpr (fun x hx => by have := hSG x hx; simp; omega)]
          simp
        omega
      exact (List.append_inj (hP.symm.trans hL) hLen).1
    · refine .inl ⟨by omega, ?_⟩
      intro P' z hPz
      have hfP : f ∈ P := by
        have : f ∈ tl := by rw [hL, hS]; simp
        rw [hP] at this
        rcases List.mem_append.mp this with h' | h'
        · exact h'
        · have := hsub4 f h'; omega
      have hz := hsub3 z (by rw [hPz]; simp)
      rw [hPz] at hfP hrelP
      rcases List.mem_append.mp hfP with h' | h'
      · have := ((List.pairwise_append.mp hrelP).2.2 f h' z (by simp)).1
        omega
      · rw [List.mem_singleton] at h'; rw [h']
  -- the forward scan
  have hfw : ∀ bb, scanBack d.num none P.reverse = .ok bb →
      scanFwd d bb none S = .overridden ∨
      (S = [] ∧ scanFwd d bb none S = .ok none none) ∨
      (∃ f, S = [f] ∧ f.kind = .fin ∧ scanFwd d bb none S = .ok (some f) none) := by
    intro bb hbb
    cases hS : S with
    | nil => exact .inr (.inl ⟨rfl, rfl⟩)
    | cons f r =>
      cases hk : f.kind with
      | bgn =>
        left
        have := hnS f (by rw [hS]; simp)
        unfold scanFwd
        rw [hk]
        simp [this]
      | fin =>
        have hstep : scanFwd d bb none (f :: r) = scanFwd d bb (some f) r := by
          conv => lhs; unfold scanFwd
          rw [hk]
          cases hb : bb with
          | none => rfl
          | some z =>
            simp only
            rw [if_neg]
            rintro ⟨g1, g2⟩
            rcases hsb with ⟨_, hsb⟩ | ⟨P', z', hPz, hkz, hsb⟩
            · rw [hsb, hb] at hbb; simp at hbb
            · rw [hsb, hb] at hbb
              simp only [BackRes.ok.injEq, Option.some.injEq] at hbb
              subst hbb
              rcases hlink f r hS hk with ⟨_, h2⟩ | ⟨_, h2, L', a, h3, _, h5⟩
              · exact g2 (h2 P' z' hPz).symm
              · rw [h2, h3] at hPz
                obtain ⟨_, h6⟩ := List.append_inj' hPz rfl
                injection h6 with h6
                rw [← h6, h5] at g1
                exact g1 rfl
        rw [hstep]
        cases r with
        | nil => exact .inr (.inr ⟨f, rfl, hk, rfl⟩)
        | cons g r' =>
          left
          have hg := alt_head_two (l := L) (f := f) (g := g) (r := r') (by rw [← hS, ← hL]; exact ha) hk
          have := hnS g (by rw [hS]; simp)
          unfold scanFwd
          rw [hg]
          simp [this]
  have hend : ∀ e, d.cend = some e → d.cbegin ≤ e := fun e he => (hwt.2 e he).1
  -- inserting at the very end
  have hput : ∀ tl0 : List Event, Alt tl0 → (∀ x ∈ tl0, x.time ≤ d.cbegin) →
      Alt (insertOnTimeline tl0 d d.cend) := by
    intro tl0 h0 h1
    have hb : Alt (tl0 ++ [beginEvent d]) := h0.snoc (by simp [beginEvent])
    have hbe : insertEv (beginEvent d) tl0 = tl0 ++ [beginEvent d] := insertEv_last h1
    unfold insertOnTimeline
    split
    · rename_i e he
      rw [hbe, insertEv_last]
      · exact hb.snoc (fun _ => ⟨tl0, beginEvent d, rfl, rfl, rfl⟩)
      · intro x hx
        have := hend e he
        rcases List.mem_append.mp hx with hx | hx
        · have := h1 x hx; simp; omega
        · rw [List.mem_singleton] at hx; subst hx; simpa [beginEvent] using this
    · rw [hbe]; exact hb
  rcases hsb with ⟨hlast, hsb⟩ | ⟨P', z, hPz, hkz, hsb⟩
  · rw [hsb]
    simp only
    rcases hfw _ hsb with hf | ⟨hS, hf⟩ | ⟨f, hS, hk, hf⟩
    · rw [hf]; exact .inl rfl
    · rw [hf]
      refine .inr ⟨_, _, rfl, ?_⟩
      simp only [trimPrev, thisEnd]
      rw [hS, List.append_nil] at hL
      exact hput tl ha (fun x hx => by rw [hL] at hx; have := hsub1 x hx; omega)
    · rw [hf]
      refine .inr ⟨_, _, rfl, ?_⟩
      simp only [trimPrev, thisEnd]
      rcases hlink f [] hS hk with ⟨h1, h2⟩ | ⟨_, h2, L', a, h3, h4, _⟩
      · refine hput tl ha (fun x hx => ?_)
        rw [hL, hS] at hx
        rcases List.mem_append.mp hx with hx | hx
        · have := hsub1 x hx; omega
        · rw [List.mem_singleton] at hx; subst hx; omega
      · exfalso
        rcases hlast with hl | ⟨P', z, hl, hzk⟩
        · rw [hl] at h2; rw [← h2] at h3; simp at h3
        · rw [h2, h3] at hl
          obtain ⟨_, h6⟩ := List.append_inj' hl rfl
          injection h6 with h6
          rw [h6, hzk] at h4
          simp at h4
  · rw [hsb]
    simp only
    rcases hfw _ hsb with hf | ⟨hS, hf⟩ | ⟨f, hS, hk, hf⟩
    · rw [hf]; exact .inl rfl
    · rw [hf]
      refine .inr ⟨_, _, rfl, ?_⟩
      simp only [trimPrev, thisEnd]
      rw [hS, List.append_nil] at hL
      have hle : ∀ x ∈ tl, x.time ≤ d.cbegin := fun x hx => by
        rw [hL] at hx; have := hsub1 x hx; omega
      have hG : G = [] := by
        cases G with
        | nil => rfl
        | cons g gs =>
          have h1 := hsub4 g (by simp)
          have h2 := hle g (by rw [hP]; simp)
          omega
      rw [hG, List.append_nil] at hP
      rw [insertEv_last (e := ⟨.fin, z.doc, d.cbegin⟩) hle]
      refine hput _ (ha.snoc (fun _ => ⟨P', z, by rw [hP, hPz], hkz, rfl⟩)) ?_
      intro x hx
      rcases List.mem_append.mp hx with hx | hx
      · exact hle x hx
      · rw [List.mem_singleton] at hx; subst hx; exact Int.le_refl _
    · rw [hf]
      refine .inr ⟨_, _, rfl, ?_⟩
      simp only [trimPrev, thisEnd]
      rcases hlink f [] hS hk with ⟨h1, h2⟩ | ⟨hlt, h2, L', a, h3, h4, h5⟩
      · exfalso
        have hle : ∀ x ∈ tl, x.time ≤ d.cbegin := fun x hx => by
          rw [hL, hS] at hx
          rcases List.mem_append.mp hx with hx | hx
          · have := hsub1 x hx; omega
          · rw [List.mem_singleton] at hx; subst hx; omega
        have hG : G = [] := by
          cases G with
          | nil => rfl
          | cons g gs =>
            have h1 := hsub4 g (by simp)
            have h2 := hle g (by rw [hP]; simp)
            omega
        rw [hG, List.append_nil, hL, hS, hPz] at hP
        obtain ⟨_, h6⟩ := List.append_inj' hP rfl
        injection h6 with h6
        rw [h6, hkz] at hk
        simp at hk
      · have hfL : f ∉ L := fun hm => by have := hsub1 f hm; omega
        have her : tl.erase f = L := by
          rw [hL, hS, List.erase_append_right _ hfL]
          simp
        have hleL : ∀ x ∈ L, x.time ≤ d.cbegin := fun x hx => by have := hsub1 x hx; omega
        rw [her, insertEv_last (e := { f with time := d.cbegin }) hleL]
        have haL : Alt L := by rw [hL] at ha; exact ha.prefix
        refine hput _ (haL.snoc (fun _ => ⟨L', a, h3, h4, h5⟩)) ?_
        intro x hx
        rcases List.mem_append.mp hx with hx | hx
        · exact hleL x hx
        · rw [List.mem_singleton] at hx; subst hx; exact Int.le_refl _

/-- Overriding everything from a begin event on removes everything. -/
theorem overrideScan_all (b : Int) (n : Nat) : ∀ (S : List Event) (disc : List Doc) (pre : List Event),
    Alt (pre ++ S) → (∀ e ∈ S, b ≤ e.time ∧ e.doc.num < n) →
    (∀ l a, pre = l ++ [a] → a.doc ∈ disc) → pre ≠ [] → (overrideScan b n disc S).1 = [] := by
  intro S
  induction S with
  | nil => intro disc pre _ _ _ _; rfl
  | cons e r ih =>
    intro disc pre ha hS hd hpre
    obtain ⟨h1, h2⟩ := hS e List.mem_cons_self
    simp only [overrideScan]
    have hc : ¬(e.kind = .fin ∧ e.doc ∉ disc) := by
      rintro ⟨hk, hnd⟩
      obtain ⟨l', a, g1, _, g3⟩ := ha pre e r rfl hk
      exact hnd (g3 ▸ hd l' a g1)
    rw [if_pos ⟨h1, h2, hc⟩]
    refine ih _ (pre ++ [e]) (by simpa using ha) (fun x hx => hS x (List.mem_cons_of_mem _ hx)) ?_ (by simp)
    intro l a hla
    obtain ⟨_, h4⟩ := List.append_inj' hla rfl
    injection h4 with h4
    rw [← h4]
    split
    · assumption
    · simp

theorem overrideScan_skip (b : Int) (n : Nat) (S : List Event) : ∀ (L : List Event) (disc : List Doc),
    (∀ e ∈ L, e.time < b) → (overrideScan b n disc (L ++ S)).1 = L ++ (overrideScan b n disc S).1 := by
  intro L
  induction L with
  | nil => intro disc _; rfl
  | cons e r ih =>
    intro disc h
    have := h e List.mem_cons_self
    simp only [List.cons_append, overrideScan]
    rw [if_neg (by intro hh; omega)]
    simp only [ih disc (fun x hx => h x (List.mem_cons_of_mem _ hx))]

/-- Overriding with the newest document keeps the timeline alternating. -/
theorem alt_override {tl : List Event} (hrel : tl.Pairwise Rel) (ha : Alt tl) {b : Int} {n : Nat}
    (hn : ∀ e ∈ tl, e.doc.num < n) : Alt (overrideScan b n [] tl).1 := by
  have hL := split_lt hrel b
  have h1 : ∀ x ∈ tl.filter (fun x => decide (x.time < b)), x.time < b := by
    intro x hx; simpa using (List.mem_filter.mp hx).2
  have h2 : ∀ x ∈ tl.filter (fun x => decide (b ≤ x.time)), b ≤ x.time := by
    intro x hx; simpa using (List.mem_filter.mp hx).2
  generalize tl.filter (fun x => decide (x.time < b)) = L at *
  generalize tl.filter (fun x => decide (b ≤ x.time)) = S at *
  rw [hL, overrideScan_skip _ _ _ _ _ h1]
  have hnS : ∀ e ∈ S, b ≤ e.time ∧ e.doc.num < n := fun e he => ⟨h2 e he, hn e (by rw [hL]; simp [he])⟩
  have hgo : ∀ (pre : List Event) (e : Event) (r : List Event), Alt (pre ++ e :: r) → e.kind = .bgn →
      (∀ x ∈ e :: r, b ≤ x.time ∧ x.doc.num < n) → (overrideScan b n [] (e :: r)).1 = [] := by
    intro pre e r hal hk hx
    simp only [overrideScan]
    obtain ⟨g1, g2⟩ := hx e List.mem_cons_self
    rw [if_pos ⟨g1, g2, by simp [hk]⟩]
    refine overrideScan_all b n r _ (pre ++ [e]) (by simpa using hal)
      (fun x hm => hx x (List.mem_cons_of_mem _ hm)) ?_ (by simp)
    intro l a hla
    obtain ⟨_, h4⟩ := List.append_inj' hla rfl
    injection h4 with h4
    simp [← h4]
  rw [hL] at ha
  cases S with
  | nil => simpa [overrideScan] using ha
  | cons f r =>
    cases hk : f.kind with
    | bgn =>
      rw [hgo L f r ha hk hnS, List.append_nil]
      exact ha.prefix
    | fin =>
      have : (overrideScan b n [] (f :: r)).1 = [f] := by
        simp only [overrideScan]
        rw [if_neg (by simp [hk])]
        simp only [List.cons.injEq, true_and]
        cases r with
        | nil => rfl
        | cons g r' =>
          exact hgo (L ++ [f]) g r' (by simpa using ha) (alt_head_two ha hk)
            (fun x hx => hnS x (List.mem_cons_of_mem _ hx))
      rw [this]
      have : L ++ f :: r = (L ++ [f]) ++ r := by simp
      rw [this] at ha
      exact ha.prefix

/-- Invariant of in-order histories. -/
structure Tidy (s : State) : Prop where
  core : Core True [] s.docs s.timeline
  fin : FinIn s.docs s.timeline
  alt : Alt s.timeline

theorem Tidy.nums {s : State} (h : Tidy s) {d : Doc} (hn : ∀ x ∈ s.docs, x.num < d.num) :
    ∀ e ∈ s.timeline, e.doc.num < d.num := by
  intro e he
  cases hk : e.kind with
  | bgn => exact hn _ (h.core.bgn e he hk).1
  | fin => exact hn _ (h.fin e he hk)

/-- Adding the newest document never fails unexpectedly. -/
theorem tidy_add {s : State} {d : Doc} (h : Tidy s) (hwt : WellTimed d)
    (hn : ∀ x ∈ s.docs, x.num < d.num) :
    (addDocument s d).2.internal = false ∧ Tidy (addDocument s d).1 := by
  have hne := h.nums hn
  have hboth : (addDocument s d).2.internal = false ∧ Alt (addDocument s d).1.timeline := by
    unfold addDocument
    split
    · rename_i o ho
      refine ⟨?_, h.alt⟩
      have := checkCompat_error ho
      simp [Outcome.internal, this]
    rename_i g hg
    simp only
    rcases newest_insert h.core.rel h.alt hwt hne with hov | ⟨docs', tl', hok, halt⟩
    · rw [hov]
      simp only
      unfold retry
      obtain ⟨s', hs', hc, hdocs, hsub, hkp, hrm, hcfg, hag, hlast, hgone⟩ :=
        override_core (s := { s with agid := g }) (d := d) h.core
      rw [hs']
      simp only
      have htl : s'.timeline = (overrideScan d.cbegin d.num [] s.timeline).1 := by
        unfold overrideSequence at hs'
        simp only at hs'
        split at hs'
        · simp at hs'
        · injection hs' with hs'; rw [← hs']
      have halt' : Alt s'.timeline := by rw [htl]; exact alt_override h.core.rel h.alt hne
      have hret := retry_insert (s := { s with agid := g }) h.core hov hs'
      rcases newest_insert hc.rel halt' hwt (fun e he => hne e (hsub e he)) with hov' | ⟨docs', tl', hok, halt''⟩
      · exact absurd hov' (hret d).2
      · rw [hok]
        exact ⟨rfl, halt''⟩
    · rw [hok]
      exact ⟨rfl, halt⟩
  refine ⟨hboth.1, ?_⟩
  rcases add_effect h.core hwt with ⟨_, hs⟩ | ⟨_, hc, _, _, _, _, _, _, hf⟩ |
    ⟨_, hd, ht, _⟩ | ⟨ho, _⟩ | ⟨ho, _⟩
  · rw [hs]; exact h
  · exact ⟨hc, hf h.fin, hboth.2⟩
  · exact ⟨by rw [hd, ht]; exact h.core, by rw [hd, ht]; exact h.fin, hboth.2⟩
  · rw [hboth.1] at ho; simp at ho
  · have := hboth.1
    rcases ho with ho | ho <;> rw [ho] at this <;> simp [Outcome.internal, Outcome.ok, Outcome.refused] at this

theorem mem_split {α : Type} {x : α} {l : List α} (h : x ∈ l) : ∃ a b, l = a ++ x :: b :=
  List.append_of_mem h

/-- Dropping old documents keeps the invariant. -/
theorem tidy_drop {s s' : State} {d : Doc} (h : Tidy s) (hd : d ∈ s.docs)
    (hs : discardBefore s d = some s') : Tidy s' := by
  obtain ⟨hc, hdocs, htl, _⟩ := drop_core h.core hd hs
  obtain ⟨l, r, hlr⟩ := mem_split (h.core.hasBgn d hd)
  have hrel := h.core.rel
  rw [hlr] at hrel
  obtain ⟨hrl, hrr, hcross⟩ := List.pairwise_append.mp hrel
  rw [List.pairwise_cons] at hrr
  have hnd := h.core.nodup
  rw [hlr] at hnd
  have hnd' := (List.nodup_append.mp hnd)
  -- events before are dropped
  have hbefore : ∀ e ∈ l, (decide (e.time ≤ d.cbegin) && e.doc.num != d.num) = true := by
    intro e he
    have hle : e.time ≤ d.cbegin := (hcross e he _ List.mem_cons_self).1
    have hne : e.doc.num ≠ d.num := by
      intro hnum
      have hm : e ∈ s.timeline := by rw [hlr]; simp [he]
      cases hk : e.kind with
      | bgn =>
        obtain ⟨g1, g2⟩ := h.core.bgn e hm hk
        have : e.doc = d := drel_eq h.core.drel g1 hd hnum
        rw [this] at g2
        exact hnd'.2.2 e he (beginEvent d) List.mem_cons_self g2
      | fin => exact (hcross e he _ List.mem_cons_self).2 ⟨hk, rfl, hnum⟩
    simp [hle, hne]
  -- later begin events are strictly later
  have hlater : ∀ e ∈ r, e.kind = .bgn → d.cbegin < e.time := by
    intro e he hk
    have hm : e ∈ s.timeline := by rw [hlr]; simp [he]
    obtain ⟨g1, g2⟩ := h.core.bgn e hm hk
    have hle : d.cbegin ≤ e.time := (hrr.1 e he).1
    have ht : e.time = e.doc.cbegin := by rw [g2]; rfl
    rcases drel_cases h.core.drel g1 hd with h1 | h1 | h1
    · rw [h1] at g2
      exact absurd (g2 ▸ he) (List.nodup_cons.mp hnd'.2.1).1
    · have := h1.2; omega
    · have := h1.2; omega
  have hafter : ∀ e ∈ beginEvent d :: r, (decide (e.time ≤ d.cbegin) && e.doc.num != d.num) = false := by
    intro e he
    rcases List.mem_cons.mp he with rfl | he
    · simp [beginEvent]
    cases hk : e.kind with
    | bgn =>
      have := hlater e he hk
      simp; intro; omega
    | fin =>
      obtain ⟨r1, r2, hr12⟩ := mem_split he
      obtain ⟨l', a, g1, g2, g3⟩ := h.alt (l ++ beginEvent d :: r1) e r2 (by rw [hlr, hr12]; simp) hk
      rcases snoc_cases r1 with hr1 | ⟨r1', z, hr1⟩
      · rw [hr1] at g1
        obtain ⟨_, h6⟩ := List.append_inj' g1 rfl
        injection h6 with h6
        rw [← g3, ← h6]
        simp [beginEvent]
      · rw [hr1] at g1
        have : l ++ beginEvent d :: (r1' ++ [z]) = (l ++ beginEvent d :: r1') ++ [z] := by simp
        rw [this] at g1
        obtain ⟨_, h6⟩ := List.append_inj' g1 rfl
        injection h6 with h6
        have hz : z ∈ r := by rw [hr12, hr1]; simp
        have h7 := hlater z hz (by rw [h6]; exact g2)
        have h8 : z.time ≤ e.time := by
          have := hrr.2
          rw [hr12] at this
          exact ((List.pairwise_append.mp this).2.2 z (by rw [hr1]; simp) e List.mem_cons_self).1
        simp; intro; omega
  have htl' : s'.timeline = beginEvent d :: r := by
    rw [htl, hlr, List.filter_append]
    rw [List.filter_eq_nil_iff.mpr (fun e he => by rw [hbefore e he]; simp)]
    rw [List.filter_eq_self.mpr (fun e he => by rw [hafter e he]; rfl)]
    rfl
  have halt : Alt s'.timeline := by
    rw [htl']
    have := h.alt
    rw [hlr] at this
    exact this.suffix rfl
  refine ⟨hc, ?_, halt⟩
  intro e he hk
  obtain ⟨a, b, hab⟩ := mem_split he
  obtain ⟨l', z, g1, g2, g3⟩ := halt a e b hab hk
  have hz : z ∈ s'.timeline := by rw [hab, g1]; simp
  rw [← g3]
  exact (hc.bgn z hz g2).1

/-! ### Separated documents -/

/-- Closed documents that do not touch: the one with the smaller number ends strictly before the
other begins. -/
def Separated (x y : Doc) : Prop :=
  (x.num < y.num → ∃ e, x.cend = some e ∧ e < y.cbegin) ∧
  (y.num < x.num → ∃ e, y.cend = some e ∧ e < x.cbegin)

/-- The events of one document. -/
def evs (x : Doc) : List Event :=
  match x.cend with
  | some e => [beginEvent x, ⟨.fin, x, e⟩]
  | none => [beginEvent x]

theorem insertEv_mid {e : Event} {r : List Event} : ∀ {l : List Event}, (∀ x ∈ l, x.time ≤ e.time) →
    (∀ x ∈ r, e.time < x.time) → insertEv e (l ++ r) = l ++ e :: r := by
  intro l
  induction l with
  | nil =>
    intro _ hr
    cases r with
    | nil => rfl
    | cons x xs =>
      simp only [List.nil_append, insertEv]
      rw [if_pos (hr x List.mem_cons_self)]
  | cons x xs ih =>
    intro h hr
    have := h x List.mem_cons_self
    simp only [List.cons_append, insertEv]
    rw [if_neg (by omega), ih (fun y hy => h y (List.mem_cons_of_mem _ hy)) hr]

theorem insertDoc_mid {d : Doc} {r : List Doc} : ∀ {l : List Doc}, (∀ x ∈ l, x.num < d.num) →
    (∀ x ∈ r, d.num < x.num) → insertDoc d (l ++ r) = l ++ d :: r := by
  intro l
  induction l with
  | nil =>
    intro _ hr
    cases r with
    | nil => rfl
    | cons x xs =>
      simp only [List.nil_append, insertDoc]
      rw [if_pos (hr x List.mem_cons_self)]
  | cons x xs ih =>
    intro h hr
    have := h x List.mem_cons_self
    simp only [List.cons_append, insertDoc]
    rw [if_neg (by omega), ih (fun y hy => h y (List.mem_cons_of_mem _ hy)) hr]

/-- Adding a document separated from all held ones inserts it between its neighbours. -/
theorem separated_insert {docs : List Doc} {d : Doc} (hp : docs.Pairwise DRel)
    (hcl : ∀ x ∈ docs, ∃ e, x.cend = some e ∧ x.cbegin ≤ e) (hdc : ∃ e, d.cend = some e ∧ d.cbegin ≤ e)
    (hsep : ∀ x ∈ docs, Separated d x) (hne : ∀ x ∈ docs, x.num ≠ d.num) :
    insertOrDiscard docs (docs.flatMap evs) d = .ok (insertDoc d docs) ((insertDoc d docs).flatMap evs) := by
  obtain ⟨de, hde, hdle⟩ := hdc
  -- split the documents at `d`
  have hsplit := split_filter (p := fun x : Doc => decide (x.num < d.num)) (l := docs)
    (hp.imp (by intro x y hh; simp only [decide_eq_true_eq]; have := hh.1; omega))
  have h1 : ∀ x ∈ docs.filter (fun x => decide (x.num < d.num)), x ∈ docs ∧ x.num < d.num := by
    intro x hx; simpa using List.mem_filter.mp hx
  have h2 : ∀ x ∈ docs.filter (fun x => !decide (x.num < d.num)), x ∈ docs ∧ d.num < x.num := by
    intro x hx
    have := List.mem_filter.mp hx
    refine ⟨this.1, ?_⟩
    have h3 := this.2
    have h4 := hne x this.1
    simp at h3; omega
  generalize docs.filter (fun x => decide (x.num < d.num)) = A at *
  generalize docs.filter (fun x => !decide (x.num < d.num)) = C at *
  have hevs : ∀ x, ∀ e ∈ evs x, e.doc = x := by
    intro x e he
    unfold evs at he
    split at he <;> simp [beginEvent] at he
    · rcases he with rfl | rfl <;> rfl
    · rw [he]
  -- times on both sides
  have hA : ∀ e ∈ A.flatMap evs, e.time < d.cbegin ∧ e.doc.num < d.num := by
    intro e he
    obtain ⟨x, hx, hex⟩ := List.mem_flatMap.mp he
    obtain ⟨hxd, hxn⟩ := h1 x hx
    obtain ⟨xe, hxe, hlt⟩ := (hsep x hxd).2 hxn
    obtain ⟨xe', hxe', hle⟩ := hcl x hxd
    rw [hxe] at hxe'; injection hxe' with hxe'
    refine ⟨?_, by rw [hevs x e hex]; exact hxn⟩
    unfold evs at hex
    rw [hxe] at hex
    simp [beginEvent] at hex
    rcases hex with rfl | rfl <;> simp <;> omega
  have hC : ∀ e ∈ C.flatMap evs, de < e.time ∧ d.num < e.doc.num := by
    intro e he
    obtain ⟨x, hx, hex⟩ := List.mem_flatMap.mp he
    obtain ⟨hxd, hxn⟩ := h2 x hx
    obtain ⟨xe, hxe, hlt⟩ := (hsep x hxd).1 hxn
    rw [hde] at hxe; injection hxe with hxe
    obtain ⟨xe', hxe', hle⟩ := hcl x hxd
    refine ⟨?_, by rw [hevs x e hex]; exact hxn⟩
    unfold evs at hex
    rw [hxe'] at hex
    simp [beginEvent] at hex
    rcases hex with rfl | rfl <;> simp <;> omega
  have hins : insertDoc d docs = A ++ d :: C := by
    rw [hsplit]; exact insertDoc_mid (fun x hx => (h1 x hx).2) (fun x hx => (h2 x hx).2)
  have htl : docs.flatMap evs = A.flatMap evs ++ C.flatMap evs := by rw [hsplit]; simp
  have hback : (docs.flatMap evs).filter (fun x => decide (x.time ≤ d.cbegin)) = A.flatMap evs := by
    rw [htl, List.filter_append]
    rw [List.filter_eq_self.mpr (fun e he => decide_eq_true (by have := (hA e he).1; omega))]
    rw [List.filter_eq_nil_iff.mpr (fun e he => by have := (hC e he).1; simp; omega)]
    simp
  have hfwd : (docs.flatMap evs).filter (fun x => decide (d.cbegin ≤ x.time)) = C.flatMap evs := by
    rw [htl, List.filter_append]
    rw [(List.filter_eq_self (l := C.flatMap evs)).mpr (fun e he => decide_eq_true (by have := (hC e he).1; omega))]
    rw [(List.filter_eq_nil_iff (l := A.flatMap evs)).mpr (fun e he => by have := (hA e he).1; simp; omega)]
    simp
  have hsb : scanBack d.num none (A.flatMap evs).reverse = .ok none := by
    rcases snoc_cases A with rfl | ⟨A', x, rfl⟩
    · rfl
    · obtain ⟨hxd, hxn⟩ := h1 x (by simp)
      obtain ⟨xe, hxe, _⟩ := hcl x hxd
      have : evs x = [beginEvent x, ⟨.fin, x, xe⟩] := by unfold evs; rw [hxe]
      simp only [List.flatMap_append, List.flatMap_cons, List.flatMap_nil, List.append_nil, this,
        List.reverse_append, List.reverse_cons, List.reverse_nil, List.nil_append, List.cons_append]
      unfold scanBack
      rw [if_neg (by simp; omega)]
      simp only
      unfold scanBack
      rw [if_neg (by simp [beginEvent]; omega)]
      simp [beginEvent]
  have hsf : scanFwd d none none (C.flatMap evs) = .ok none none := by
    cases C with
    | nil => rfl
    | cons y ys =>
      obtain ⟨hyd, hyn⟩ := h2 y (by simp)
      obtain ⟨ye, hye, _⟩ := hcl y hyd
      obtain ⟨de', hde', hlt⟩ := (hsep y hyd).1 hyn
      rw [hde] at hde'; injection hde' with hde'
      have : evs y = [beginEvent y, ⟨.fin, y, ye⟩] := by unfold evs; rw [hye]
      simp only [List.flatMap_cons, this, List.cons_append]
      unfold scanFwd
      have a1 : ¬ y.num < d.num := by omega
      have a2 : ¬ y.cbegin < de := by omega
      simp [beginEvent, a1, hyn, hde, a2]
  unfold insertOrDiscard
  rw [hback, hsb]
  simp only
  rw [hfwd, hsf]
  simp only [trimPrev, thisEnd, hde, insertOnTimeline]
  congr 1
  rw [hins, htl]
  have he1 : insertEv (beginEvent d) (A.flatMap evs ++ C.flatMap evs) =
      A.flatMap evs ++ beginEvent d :: C.flatMap evs :=
    insertEv_mid (fun e he => by have := (hA e he).1; simp [beginEvent]; omega)
      (fun e he => by have := (hC e he).1; simp [beginEvent]; omega)
  rw [he1]
  have : A.flatMap evs ++ beginEvent d :: C.flatMap evs = (A.flatMap evs ++ [beginEvent d]) ++ C.flatMap evs := by
    simp
  rw [this, insertEv_mid]
  · have hd' : evs d = [beginEvent d, ⟨.fin, d, de⟩] := by unfold evs; rw [hde]
    simp [hd']
  · intro e he
    rcases List.mem_append.mp he with he | he
    · have := (hA e he).1; simp; omega
    · rw [List.mem_singleton] at he; subst he; simpa [beginEvent] using hdle
  · intro e he
    exact (hC e he).1

end Verif.Seq
