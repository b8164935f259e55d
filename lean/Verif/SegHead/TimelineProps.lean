import Verif.SegHead.Timeline

/-!
# Looking up a range on a document's timeline (C53)
-/
namespace Verif.SegHead

open Verif.Doc (Comp Win Overlaps)

/-- Order of events: by time, and of the events of one element at the same time the begin first. -/
def Before (x y : Ev) : Prop := x.t < y.t ∨ (x.t = y.t ∧ (x.el = y.el → x.fin = false))

theorem mem_insertEv {e x : Ev} : ∀ {l : List Ev}, x ∈ insertEv e l ↔ x = e ∨ x ∈ l
  | [] => by simp [insertEv]
  | y :: ys => by
    rw [insertEv]
    split
    · simp
    · rw [List.mem_cons, mem_insertEv, List.mem_cons]
      constructor
      · rintro (h | h | h)
        · exact .inr (.inl h)
        · exact .inl h
        · exact .inr (.inr h)
      · rintro (h | h | h)
        · exact .inr (.inl h)
        · exact .inl h
        · exact .inr (.inr h)

theorem insertEv_before {e : Ev} : ∀ {l : List Ev}, l.Pairwise Before → (∀ x ∈ l, x.el = e.el → x.fin = false) →
    (insertEv e l).Pairwise Before
  | [], _, _ => by simp [insertEv]
  | x :: xs, h, hf => by
    rw [insertEv]
    rw [List.pairwise_cons] at h
    split
    · rename_i hlt
      rw [List.pairwise_cons, List.pairwise_cons]
      refine ⟨?_, h⟩
      intro y hy
      rcases List.mem_cons.mp hy with rfl | hy
      · exact .inl hlt
      · have : x.t ≤ y.t := by rcases h.1 y hy with h | h <;> omega
        exact .inl (by omega)
    · rename_i hlt
      rw [List.pairwise_cons]
      refine ⟨?_, insertEv_before h.2 (fun y hy => hf y (List.mem_cons_of_mem _ hy))⟩
      intro y hy
      rcases mem_insertEv.mp hy with rfl | hy
      · by_cases he : x.t = y.t
        · exact .inr ⟨he, hf x List.mem_cons_self⟩
        · exact .inl (by omega)
      · exact h.1 y hy

theorem insertEv_nodup {e : Ev} : ∀ {l : List Ev}, l.Nodup → e ∉ l → (insertEv e l).Nodup
  | [], _, _ => by simp [insertEv]
  | x :: xs, h, hn => by
    rw [insertEv]
    rw [List.nodup_cons] at h
    simp only [List.mem_cons, not_or] at hn
    split
    · rw [List.nodup_cons, List.nodup_cons]
      exact ⟨by simp [hn.1, hn.2], h⟩
    · rw [List.nodup_cons, mem_insertEv]
      exact ⟨by simp [h.1, Ne.symm hn.1], insertEv_nodup h.2 hn.2⟩

/-- The two events of an element. -/
def Event (i : Nat) (c : Comp) (x : Ev) : Prop :=
  x.el = i ∧ (x.fin = false ∧ x.t = c.b ∨ x.fin = true ∧ c.e = some x.t)

/-- What holds of a timeline on which the elements `cs` were put. -/
structure IsTimeline (tl : List Ev) (cs : List Comp) : Prop where
  mem : ∀ x, x ∈ tl ↔ ∃ c, cs[x.el]? = some c ∧ Event x.el c x
  sorted : tl.Pairwise Before
  nodup : tl.Nodup

theorem isTimeline_add {tl : List Ev} {cs : List Comp} (h : IsTimeline tl cs) (c : Comp) :
    IsTimeline (addTo tl cs.length c) (cs ++ [c]) := by
  have hnew : ∀ x ∈ tl, x.el ≠ cs.length := by
    intro x hx he
    obtain ⟨d, hd, _⟩ := (h.mem x).mp hx
    have := (List.getElem?_eq_some_iff.mp hd).1
    omega
  have hget : ∀ i d, (cs ++ [c])[i]? = some d ↔ cs[i]? = some d ∨ i = cs.length ∧ d = c := by
    intro i d
    rw [List.getElem?_append]
    split
    · rename_i hl
      constructor
      · exact fun h => .inl h
      · rintro (h | h)
        · exact h
        · omega
    · rename_i hl
      have hn : cs[i]? = none := by rw [List.getElem?_eq_none_iff]; omega
      rw [hn]
      by_cases he : i = cs.length
      · subst he; simp [eq_comm]
      · have : i - cs.length ≠ 0 := by omega
        obtain ⟨k, hk⟩ := Nat.exists_eq_succ_of_ne_zero this
        simp [hk, he]
  have hb : insertEv ⟨false, cs.length, c.b⟩ tl |>.Pairwise Before :=
    insertEv_before h.sorted (fun x hx he => absurd he (hnew x hx))
  have hbn : (insertEv ⟨false, cs.length, c.b⟩ tl).Nodup := insertEv_nodup h.nodup (fun hm => hnew _ hm rfl)
  unfold addTo
  cases he : c.e with
  | none =>
    refine ⟨?_, hb, hbn⟩
    intro x
    rw [mem_insertEv, h.mem]
    constructor
    · rintro (rfl | ⟨d, h1, h2⟩)
      · exact ⟨c, (hget _ _).mpr (.inr ⟨rfl, rfl⟩), rfl, .inl ⟨rfl, rfl⟩⟩
      · exact ⟨d, (hget _ _).mpr (.inl h1), h2⟩
    · rintro ⟨d, h1, h2⟩
      rcases (hget _ _).mp h1 with h1 | ⟨h1, rfl⟩
      · exact .inr ⟨d, h1, h2⟩
      · rcases h2.2 with ⟨hf, ht⟩ | ⟨_, ht⟩
        · obtain ⟨f, i, t⟩ := x
          simp only at hf ht h1
          subst hf ht h1
          exact .inl rfl
        · rw [he] at ht; cases ht
  | some e =>
    simp only
    refine ⟨?_, insertEv_before hb ?_, insertEv_nodup hbn ?_⟩
    · intro x
      rw [mem_insertEv, mem_insertEv, h.mem]
      constructor
      · rintro (rfl | rfl | ⟨d, h1, h2⟩)
        · exact ⟨c, (hget _ _).mpr (.inr ⟨rfl, rfl⟩), rfl, .inr ⟨rfl, he⟩⟩
        · exact ⟨c, (hget _ _).mpr (.inr ⟨rfl, rfl⟩), rfl, .inl ⟨rfl, rfl⟩⟩
        · exact ⟨d, (hget _ _).mpr (.inl h1), h2⟩
      · rintro ⟨d, h1, h2⟩
        rcases (hget _ _).mp h1 with h1 | ⟨h1, rfl⟩
        · exact .inr (.inr ⟨d, h1, h2⟩)
        · obtain ⟨f, i, t⟩ := x
          rcases h2.2 with ⟨hf, ht⟩ | ⟨hf, ht⟩
          · simp only at hf ht h1
            subst hf ht h1
            exact .inr (.inl rfl)
          · rw [he] at ht
            simp only [Option.some.injEq] at hf ht h1
            subst hf ht h1
            exact .inl rfl
    · intro x hx hel
      rcases mem_insertEv.mp hx with rfl | hx
      · rfl
      · exact absurd hel (hnew x hx)
    · rw [mem_insertEv]
      rintro (h1 | h1)
      · cases h1
      · exact hnew _ h1 rfl

theorem isTimeline_addAll : ∀ (ds : List Comp) {tl : List Ev} {cs : List Comp}, IsTimeline tl cs →
    IsTimeline (addAll tl cs.length ds) (cs ++ ds)
  | [], tl, cs, h => by simpa [addAll] using h
  | d :: ds, tl, cs, h => by
    have := isTimeline_addAll ds (isTimeline_add h d)
    rw [List.length_append, List.append_assoc] at this
    exact this

theorem isTimeline (cs : List Comp) : IsTimeline (timeline cs) cs := by
  have := isTimeline_addAll cs (tl := []) (cs := []) ⟨by simp, by simp, by simp⟩
  simpa [timeline] using this

/-! ### The loop -/

/-- An end that takes its element out again. -/
def ends (w : Win) (i : Nat) (x : Ev) : Bool :=
  x.fin && decide (x.el = i) && (match w.b with
    | none => false
    | some b => decide (x.t ≤ b))

/-- A begin that puts its element in. -/
def begins (w : Win) (i : Nat) (x : Ev) : Bool := !x.fin && decide (x.el = i) && decide (some x.t ≠ w.e)

theorem step_nodup {w : Win} {acc : List Nat} {x : Ev} (h : acc.Nodup) (hb : begins w x.el x = true → x.el ∉ acc) :
    (lookupStep w acc x).Nodup := by
  unfold lookupStep
  split
  · split
    · exact h
    · split
      · exact h.erase _
      · exact h
  · rename_i hf
    split
    · rename_i hne
      rw [List.nodup_append]
      refine ⟨h, by simp, ?_⟩
      intro a ha b hb'
      rw [List.mem_singleton] at hb'
      rintro rfl
      exact hb (by simp [begins, hf, hne]) (hb' ▸ ha)
    · exact h

theorem mem_step {w : Win} {acc : List Nat} {x : Ev} {i : Nat} (h : acc.Nodup) :
    i ∈ lookupStep w acc x ↔ begins w i x = true ∨ (i ∈ acc ∧ ends w i x = false) := by
  unfold lookupStep begins ends
  cases hf : x.fin with
  | true =>
    simp only [if_true]
    cases w.b with
    | none => simp
    | some b =>
      simp only
      split
      · rename_i hle
        rw [h.mem_erase_iff]
        constructor
        · rintro ⟨h1, h2⟩
          exact .inr ⟨h2, by simp [Ne.symm h1]⟩
        · rintro (h1 | ⟨h1, h2⟩)
          · simp at h1
          · refine ⟨?_, h1⟩
            rintro rfl
            simp [hle] at h2
      · rename_i hle; simp [hle]
  | false =>
    by_cases hne : some x.t = w.e
    · simp [hne]
    · simp only [Bool.false_eq_true, if_false, ne_eq, hne, not_false_eq_true, if_true, List.mem_append, List.mem_singleton]
      constructor
      · rintro (h1 | h1)
        · exact .inr ⟨h1, by simp⟩
        · exact .inl (by simp [h1])
      · rintro (h1 | h1)
        · exact .inr (by simpa [eq_comm] using h1)
        · exact .inl h1.1

/-- The result of the loop: an element is in it if its begin was seen with no end of it afterwards. -/
theorem mem_loop {w : Win} : ∀ (l : List Ev) (acc : List Nat), acc.Nodup →
    (l.Pairwise (fun x y => begins w x.el x = true → begins w y.el y = true → x.el ≠ y.el)) →
    (∀ x ∈ l, begins w x.el x = true → x.el ∉ acc) →
    (l.foldl (lookupStep w) acc).Nodup ∧
    ∀ i, i ∈ l.foldl (lookupStep w) acc ↔
      (i ∈ acc ∧ ∀ x ∈ l, ends w i x = false) ∨
      (∃ a x b, l = a ++ x :: b ∧ begins w i x = true ∧ ∀ y ∈ b, ends w i y = false)
  | [], acc, h, _, _ => by simp [h]
  | x :: l, acc, h, hp, hb => by
    rw [List.pairwise_cons] at hp
    have hstep := step_nodup (w := w) h (hb x List.mem_cons_self)
    have hkey : ∀ y ∈ l, begins w y.el y = true → y.el ∉ lookupStep w acc x := by
      intro y hy hby hm
      rcases (mem_step h).mp hm with h1 | h1
      · have hxe : x.el = y.el := by
          simp only [begins, Bool.and_eq_true, decide_eq_true_eq] at h1; exact h1.1.2
        have hbx : begins w x.el x = true := by rw [hxe]; exact h1
        exact hp.1 y hy hbx hby hxe
      · exact hb y (List.mem_cons_of_mem _ hy) hby h1.1
    obtain ⟨ih1, ih2⟩ := mem_loop l (lookupStep w acc x) hstep hp.2 hkey
    refine ⟨ih1, ?_⟩
    intro i
    rw [List.foldl_cons, ih2 i, mem_step h]
    constructor
    · rintro (⟨h1 | ⟨h1, h2⟩, h3⟩ | ⟨a, y, b, rfl, h1, h2⟩)
      · exact .inr ⟨[], x, l, rfl, h1, h3⟩
      · refine .inl ⟨h1, ?_⟩
        intro y hy
        rcases List.mem_cons.mp hy with rfl | hy
        · exact h2
        · exact h3 y hy
      · exact .inr ⟨x :: a, y, b, rfl, h1, h2⟩
    · rintro (⟨h1, h2⟩ | ⟨a, y, b, hl, h1, h2⟩)
      · exact .inl ⟨.inr ⟨h1, h2 x List.mem_cons_self⟩, fun y hy => h2 y (List.mem_cons_of_mem _ hy)⟩
      · cases a with
        | nil =>
          rw [List.nil_append] at hl
          injection hl with e1 e2
          subst e1 e2
          exact .inl ⟨.inl h1, h2⟩
        | cons z a =>
          rw [List.cons_append] at hl
          injection hl with e1 e2
          subst e1
          exact .inr ⟨a, y, b, e2, h1, h2⟩

theorem pairwise_append_mid {α : Type} {R : α → α → Prop} {a b : List α} {x : α} (h : (a ++ x :: b).Pairwise R) :
    (∀ y ∈ a, R y x) ∧ ∀ y ∈ b, R x y := by
  rw [List.pairwise_append, List.pairwise_cons] at h
  exact ⟨fun y hy => h.2.2 y hy x List.mem_cons_self, h.2.1.1⟩

/-- What the lookup finds: the elements whose begin is before the end of the range, and that have no end event
behind their begin with a time before the range. -/
theorem lookup_raw (cs : List Comp) (w : Win) :
    (lookupRange (timeline cs) w).Nodup ∧
    ∀ i, i ∈ lookupRange (timeline cs) w ↔
      ∃ c, cs[i]? = some c ∧ (∀ m, w.e = some m → c.b < m) ∧
        ∀ b e, w.b = some b → c.e = some e → c.b ≤ e → e ≤ b → ∃ m, w.e = some m ∧ m < e := by
  have ht := isTimeline cs
  generalize timeline cs = tl at ht
  have hone : ∀ x ∈ tl, ∀ y ∈ tl, x.fin = false → y.fin = false → x.el = y.el → x = y := by
    intro x hx y hy hfx hfy he
    obtain ⟨c, h1, _, h2⟩ := (ht.mem x).mp hx
    obtain ⟨d, h3, _, h4⟩ := (ht.mem y).mp hy
    rw [he, h3] at h1
    injection h1 with h1
    subst h1
    rcases h2 with ⟨_, h2⟩ | ⟨h2, _⟩
    · rcases h4 with ⟨_, h4⟩ | ⟨h4, _⟩
      · obtain ⟨f, i, t⟩ := x
        obtain ⟨g, j, u⟩ := y
        simp_all
      · rw [hfy] at h4; cases h4
    · rw [hfx] at h2; cases h2
  have hpair : (tl.filter (upTo w)).Pairwise (fun x y => begins w x.el x = true → begins w y.el y = true → x.el ≠ y.el) := by
    have hn : (tl.filter (upTo w)).Nodup := List.Pairwise.filter _ ht.nodup
    refine List.Pairwise.imp_of_mem ?_ hn
    intro x y hx hy hne hbx hby he
    simp only [begins, Bool.and_eq_true, Bool.not_eq_true'] at hbx hby
    exact hne (hone x (List.mem_filter.mp hx).1 y (List.mem_filter.mp hy).1 hbx.1.1 hby.1.1 he)
  obtain ⟨h1, h2⟩ := mem_loop (w := w) (tl.filter (upTo w)) [] (by simp) hpair (by simp)
  refine ⟨h1, ?_⟩
  intro i
  unfold lookupRange
  rw [h2 i]
  simp only [List.not_mem_nil, false_and, false_or]
  have hsorted : (tl.filter (upTo w)).Pairwise Before := List.Pairwise.filter _ ht.sorted
  constructor
  · rintro ⟨a, x, b, hl, hbx, hno⟩
    have hx : x ∈ tl.filter (upTo w) := by rw [hl]; simp
    simp only [begins, Bool.and_eq_true, Bool.not_eq_true', decide_eq_true_eq] at hbx
    obtain ⟨⟨hf, rfl⟩, hne⟩ := hbx
    obtain ⟨hxt, hup⟩ := List.mem_filter.mp hx
    obtain ⟨c, hc, _, hev⟩ := (ht.mem x).mp hxt
    have hxb : x.t = c.b := by
      rcases hev with ⟨_, h⟩ | ⟨h, _⟩
      · exact h
      · rw [hf] at h; cases h
    refine ⟨c, hc, ?_, ?_⟩
    · intro m hm
      simp only [upTo, hm, decide_eq_true_eq] at hup
      rw [hm] at hne
      have : x.t ≠ m := fun h => hne (by rw [h])
      omega
    · intro wb e hwb hce hbe hle
      rcases Classical.em (∃ m, w.e = some m ∧ m < e) with h | h
      · exact h
      · exfalso
        have hfin : (⟨true, x.el, e⟩ : Ev) ∈ tl.filter (upTo w) := by
          rw [List.mem_filter]
          refine ⟨(ht.mem _).mpr ⟨c, hc, rfl, .inr ⟨rfl, hce⟩⟩, ?_⟩
          unfold upTo
          cases hm : w.e with
          | none => rfl
          | some m => simp only [decide_eq_true_eq]; exact Int.not_lt.mp (fun hlt => h ⟨m, hm, hlt⟩)
        rw [hl] at hfin
        rw [hl] at hsorted
        rcases List.mem_append.mp hfin with hm | hm
        · rcases (pairwise_append_mid hsorted).1 _ hm with h | ⟨h, h'⟩
          · simp only at h; omega
          · have := h' rfl; cases this
        · rcases List.mem_cons.mp hm with hm | hm
          · rw [← hm] at hf; cases hf
          · have := hno _ hm
            simp [ends, hwb, hle] at this
  · rintro ⟨c, hc, hlt, hend⟩
    have hx : (⟨false, i, c.b⟩ : Ev) ∈ tl.filter (upTo w) := by
      rw [List.mem_filter]
      refine ⟨(ht.mem _).mpr ⟨c, hc, rfl, .inl ⟨rfl, rfl⟩⟩, ?_⟩
      unfold upTo
      cases hm : w.e with
      | none => rfl
      | some m => simp only [decide_eq_true_eq]; exact Int.le_of_lt (hlt m hm)
    obtain ⟨a, b, hl⟩ := List.append_of_mem hx
    refine ⟨a, _, b, hl, ?_, ?_⟩
    · simp only [begins, Bool.not_false, Bool.true_and, decide_true, decide_eq_true_eq]
      intro he
      have := hlt c.b he.symm
      omega
    · intro y hy
      rw [hl] at hsorted
      have hbef := (pairwise_append_mid hsorted).2 y hy
      cases he : ends w i y with
      | false => rfl
      | true =>
        exfalso
        unfold ends at he
        cases hwb : w.b with
        | none => rw [hwb] at he; simp at he
        | some wb =>
          rw [hwb] at he
          simp only [Bool.and_eq_true, decide_eq_true_eq] at he
          obtain ⟨⟨hf, hel⟩, hle⟩ := he
          have hyf : y ∈ tl.filter (upTo w) := by rw [hl]; simp [hy]
          obtain ⟨hyt, hup⟩ := List.mem_filter.mp hyf
          obtain ⟨d, hd, _, hev⟩ := (ht.mem y).mp hyt
          rw [hel, hc] at hd
          injection hd with hd
          subst hd
          rcases hev with ⟨h, _⟩ | ⟨_, hce⟩
          · rw [hf] at h; cases h
          · have hbe : c.b ≤ y.t := by rcases hbef with h | h <;> simp only at h <;> omega
            obtain ⟨m, hm, hlt'⟩ := hend wb y.t hwb hce hbe hle
            simp only [upTo, hm, decide_eq_true_eq] at hup
            omega

/-! ### C53 -/

/-- **C53.** For elements that do not end before they begin and a range that does not end before it begins,
looking up the range gives exactly the elements whose interval overlaps it, each once. -/
theorem C53_lookup (cs : List Comp) (w : Win) (hc : ∀ c ∈ cs, ∀ e, c.e = some e → c.b ≤ e)
    (hw : ∀ b e, w.b = some b → w.e = some e → b ≤ e) :
    (lookupRange (timeline cs) w).Nodup ∧
    ∀ i, i ∈ lookupRange (timeline cs) w ↔ ∃ c, cs[i]? = some c ∧ Overlaps w c = true := by
  obtain ⟨h1, h2⟩ := lookup_raw cs w
  refine ⟨h1, ?_⟩
  intro i
  rw [h2 i]
  constructor
  · rintro ⟨c, hi, h3, h4⟩
    refine ⟨c, hi, ?_⟩
    have hc' := hc c (List.mem_of_getElem? hi)
    unfold Overlaps
    cases hb : w.b <;> cases he : w.e <;> cases hce : c.e <;> simp_all <;> omega
  · rintro ⟨c, hi, h3⟩
    refine ⟨c, hi, ?_, ?_⟩
    · unfold Overlaps at h3
      intro m hm
      rw [hm] at h3
      simp only [Bool.and_eq_true, decide_eq_true_eq] at h3
      exact h3.2
    · intro b e hb hce _ hle
      unfold Overlaps at h3
      rw [hb, hce] at h3
      simp only [Bool.and_eq_true, decide_eq_true_eq] at h3
      omega

/-- An element that overlaps the range is always found, whatever the others are. -/
theorem C53_finds (cs : List Comp) (w : Win) (i : Nat) (c : Comp) (hi : cs[i]? = some c) (ho : Overlaps w c = true) :
    i ∈ lookupRange (timeline cs) w := by
  rw [(lookup_raw cs w).2 i]
  refine ⟨c, hi, ?_, ?_⟩
  · unfold Overlaps at ho
    intro m hm
    rw [hm] at ho
    simp only [Bool.and_eq_true, decide_eq_true_eq] at ho
    exact ho.2
  · intro b e hb hce _ hle
    unfold Overlaps at ho
    rw [hb, hce] at ho
    simp only [Bool.and_eq_true, decide_eq_true_eq] at ho
    omega

/-- Four elements: one before the range, one ending at its begin, one around it and one open-ended beginning at its end. -/
example : lookupRange (timeline [⟨8, some 20⟩, ⟨0, some 2⟩, ⟨3, some 5⟩, ⟨1, some 9⟩, ⟨10, none⟩, ⟨5, some 5⟩]) ⟨some 5, some 10⟩ = [3, 0] ∧
    (∀ c ∈ ([⟨8, some 20⟩, ⟨0, some 2⟩, ⟨3, some 5⟩, ⟨1, some 9⟩, ⟨10, none⟩, ⟨5, some 5⟩] : List Comp), ∀ e, c.e = some e → c.b ≤ e) := by
  decide +kernel

/-- An element that ends before it begins is found, although it is over before the range begins. -/
theorem C53_false_reversed_element : lookupRange (timeline [⟨4, some 3⟩]) ⟨some 5, some 10⟩ = [0] ∧
    Overlaps ⟨some 5, some 10⟩ ⟨4, some 3⟩ = false := by decide

end Verif.SegHead
