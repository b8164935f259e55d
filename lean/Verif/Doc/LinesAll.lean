import Verif.Doc.LinesProps

/-! The computed times of all elements, not only of leaves. -/
namespace Verif.Doc

/-- Not before zero, and not ended at zero. -/
def Posd (c : Comp) : Prop := 0 ≤ c.b ∧ ∀ e, c.e = some e → 0 < e

theorem maxEnd_pos : ∀ (ks : List Comp), (∀ k ∈ ks, Posd k) → ∀ m, maxEnd ks = some m → 0 < m := by
  intro ks
  induction ks with
  | nil => intro _ m h; simp [maxEnd] at h
  | cons k ks ih =>
    intro hk m h
    obtain ⟨e, he, hle⟩ := maxEnd_ge _ m h k List.mem_cons_self
    have := (hk k List.mem_cons_self).2 e he
    omega

theorem ownEnd_pos {avail sync : Int} {bound : Option Int} {a : Att} (hav : 0 ≤ avail) (hs : 0 ≤ sync)
    (hb : ∀ e, bound = some e → 0 < e) (ha : ∀ v, a.beg = some v ∨ a.fin = some v ∨ a.dur = some v → 0 ≤ v.delta) :
    ∀ e, ownEnd avail sync bound a = some e → 0 < e := by
  intro e he
  have h1 := fun t (ht : eff a.beg = some t) => And.intro (eff_forall (P := fun t => 0 ≤ t) (fun v hv => ha v (.inl hv)) ht) (eff_ne_zero ht)
  have h2 := fun t (ht : eff a.fin = some t) => And.intro (eff_forall (P := fun t => 0 ≤ t) (fun v hv => ha v (.inr (.inl hv))) ht) (eff_ne_zero ht)
  have h3 := fun t (ht : eff a.dur = some t) => And.intro (eff_forall (P := fun t => 0 ≤ t) (fun v hv => ha v (.inr (.inr hv))) ht) (eff_ne_zero ht)
  unfold ownEnd preEnd baseEnd at he
  cases hbo : bound <;> cases hbe : eff a.beg <;> cases hfe : eff a.fin <;> cases hde : eff a.dur <;> cases hk : a.kind <;>
    simp_all <;> omega

theorem compOf_pos {avail sync : Int} {bound : Option Int} {a : Att} {ks : List Comp} (hav : 0 ≤ avail)
    (hs : 0 ≤ sync) (hb : ∀ e, bound = some e → 0 < e)
    (ha : ∀ v, a.beg = some v ∨ a.fin = some v ∨ a.dur = some v → 0 ≤ v.delta)
    (hk : ∀ k ∈ ks, Posd k) : Posd (compOf avail sync bound a ks) := by
  have hsync : 0 ≤ sync + (eff a.beg).getD 0 := by
    cases hbe : eff a.beg with
    | none => simp; omega
    | some b => have := eff_forall (P := fun t => 0 ≤ t) (fun v hv => ha v (.inl hv)) hbe; simp; omega
  have hpost : ∀ m : Int, 0 ≤ m → 0 ≤ postBegin m ks := by
    intro m hm
    unfold postBegin
    cases ks with
    | nil => exact hm
    | cons k ks => simp only; split <;> omega
  constructor
  · unfold compOf
    simp only
    have : 0 ≤ (if avail ≠ 0 then max (sync + (eff a.beg).getD 0) avail else sync + (eff a.beg).getD 0) := by
      split <;> omega
    by_cases hbody : a.kind = .body ∧ badly a = true
    · rw [if_pos hbody]
      split
      · exact hpost _ (Int.le_refl _)
      · exact Int.le_refl _
    · rw [if_neg hbody]
      split
      · exact hpost _ this
      · exact this
  · intro e he
    unfold compOf at he
    simp only at he
    by_cases hbody : a.kind = .body ∧ badly a = true
    · rw [if_pos hbody] at he
      simp at he
    · rw [if_neg hbody] at he
      simp only at he
      have ho := ownEnd_pos hav hs hb ha
      cases hoe : ownEnd avail sync bound a with
      | some e' => rw [hoe] at he; simp at he; exact he ▸ ho e' hoe
      | none =>
        rw [hoe] at he
        cases ks with
        | nil => simp at he; exact hb e he
        | cons k ks => exact maxEnd_pos _ hk e he

/-- No element has a negative time. -/
def AllNonneg (n : Node Att) : Prop :=
  ∀ anc a kids, Reach n anc (.elem a kids) → ∀ v, a.beg = some v ∨ a.fin = some v ∨ a.dur = some v → 0 ≤ v.delta

theorem AllNonneg.kid {a : Att} {kids : List (Node Att)} (h : AllNonneg (.elem a kids)) {k : Node Att} (hk : k ∈ kids) : AllNonneg k :=
  fun anc b ks hr => h (a :: anc) b ks (by
    have := reach_trans (x := a) (root := .elem a kids) (.here) hk hr
    simpa using this)

theorem sync_nonneg {sync : Int} {a : Att} (hs : 0 ≤ sync) (ha : ∀ v, a.beg = some v → 0 ≤ v.delta) :
    0 ≤ sync + (eff a.beg).getD 0 := by
  cases hbe : eff a.beg with
  | none => simp; omega
  | some b => have := eff_forall (P := fun t => 0 ≤ t) ha hbe; simp; omega

theorem below_pos {own bound : Option Int} (h1 : ∀ e, own = some e → 0 < e) (h2 : ∀ e, bound = some e → 0 < e) :
    ∀ e, below own bound = some e → 0 < e := by
  intro e he
  cases own with
  | some e' => simp [below] at he; exact he ▸ h1 e' rfl
  | none => exact h2 e he

mutual
theorem times_pos {avail : Int} (hav : 0 ≤ avail) : ∀ (n : Node Att) (sync : Int) (bound : Option Int),
    0 ≤ sync → (∀ e, bound = some e → 0 < e) → AllNonneg n →
    ∀ x kids, times avail sync bound n = .elem x kids → Posd x.comp
  | .text s, _, _, _, _, _, x, kids, h => by simp [times] at h
  | .br, _, _, _, _, _, x, kids, h => by simp [times] at h
  | .elem a ks, sync, bound, hs, hb, hm, x, kids, h => by
    rw [times] at h
    injection h with h1 h2
    subst h1
    have ha := hm [] a ks .here
    refine compOf_pos hav hs hb ha ?_
    intro c hc
    obtain ⟨y, ys, hy, rfl⟩ := timedKids_mem hc
    exact timesL_pos hav ks _ _ (sync_nonneg hs (fun v hv => ha v (.inl hv))) (below_pos (ownEnd_pos hav hs hb ha) hb)
      (fun k hk => hm.kid hk) y ys hy
theorem timesL_pos {avail : Int} (hav : 0 ≤ avail) : ∀ (ns : List (Node Att)) (sync : Int) (bound : Option Int),
    0 ≤ sync → (∀ e, bound = some e → 0 < e) → (∀ k ∈ ns, AllNonneg k) →
    ∀ x kids, Node.elem x kids ∈ timesL avail sync bound ns → Posd x.comp
  | [], _, _, _, _, _, x, kids, h => by simp [timesL] at h
  | k :: ks, sync, bound, hs, hb, hm, x, kids, h => by
    rw [timesL, List.mem_cons] at h
    rcases h with h | h
    · exact times_pos hav k sync bound hs hb (hm k List.mem_cons_self) x kids h.symm
    · exact timesL_pos hav ks sync bound hs hb (fun k' hk' => hm k' (List.mem_cons_of_mem _ hk')) x kids h
end

/-- All elements have the times they need. -/
def AllOk (n : Node Lab) : Prop := ∀ anc x kids, Reach n anc (.elem x kids) → LeafFact x.comp

theorem AllOk.kid {x : Lab} {kids : List (Node Lab)} (h : AllOk (.elem x kids)) {k : Node Lab} (hk : k ∈ kids) : AllOk k :=
  fun anc y ks hr => h (x :: anc) y ks (by
    have := reach_trans (x := x) (root := .elem x kids) (.here) hk hr
    simpa using this)

theorem inMs_kid {a : Att} {kids : List (Node Att)} (h : inMs (.elem a kids) = true) {k : Node Att} (hk : k ∈ kids) : inMs k = true := by
  rw [inMs, Bool.and_eq_true] at h
  have h := h.2
  clear * - h hk
  induction kids with
  | nil => simp at hk
  | cons y ys ih =>
    rw [inMsL, Bool.and_eq_true] at h
    rcases List.mem_cons.mp hk with rfl | hk
    · exact h.1
    · exact ih hk h.2

theorem allOk_times {avail : Int} (ha : 0 ≤ avail) (hams : avail % 1000 = 0) {root : Node Att} (hs : Sane root)
    (hms : inMs root = true) : AllOk (times avail 0 none root) := by
  intro anc x kids hr
  have := reach_all (P := fun n => ∃ sync bound n0, n = times avail sync bound n0 ∧ 0 ≤ sync ∧ sync % 1000 = 0 ∧
      (∀ e, bound = some e → 0 < e ∧ e % 1000 = 0) ∧ AllNonneg n0 ∧ inMs n0 = true) ?_ ?_ hr
  · obtain ⟨sync, bound, n0, hn, h1, h2, h3, h4, h5⟩ := this
    have hp := times_pos ha n0 sync bound h1 (fun e he => (h3 e he).1) h4 x kids hn.symm
    have hw := times_whole hams n0 sync bound h2 (fun e he => (h3 e he).2) h5 x kids hn.symm
    exact ⟨hp.1, hp.2, hw.1, hw.2⟩
  · rintro x kids k ⟨sync, bound, n0, hn, h1, h2, h3, h4, h5⟩ hk
    cases n0 with
    | text s => simp [times] at hn
    | br => simp [times] at hn
    | elem a ks =>
      rw [times] at hn
      injection hn with hn1 hn2
      rw [hn2, timesL_eq, List.mem_map] at hk
      obtain ⟨k0, hk0, rfl⟩ := hk
      have hna := h4 [] a ks .here
      have hma := h5
      rw [inMs, Bool.and_eq_true] at hma
      refine ⟨_, _, k0, rfl, sync_nonneg h1 (fun v hv => hna v (.inl hv)), ?_, ?_, h4.kid hk0, inMs_kid h5 hk0⟩
      · have h6 := hma.1
        simp only [List.all_cons, Bool.and_eq_true] at h6
        cases hbe : eff a.beg with
        | none => simp; omega
        | some b => have := eff_whole h6.1 hbe; simp; omega
      · intro e he
        refine ⟨below_pos (ownEnd_pos ha h1 (fun e he => (h3 e he).1) hna) (fun e he => (h3 e he).1) e he, ?_⟩
        have ho := ownEnd_whole hams h2 (fun e he => (h3 e he).2) hma.1
        cases hoe : ownEnd avail sync bound a with
        | some e' => rw [hoe] at he; simp [below] at he; exact he ▸ ho e' hoe
        | none => rw [hoe] at he; exact (h3 e he).2
  · exact ⟨0, none, root, rfl, by omega, by omega, by simp, hs.nonneg, hms⟩

end Verif.Doc
