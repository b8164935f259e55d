import Verif.Seq.LateBad

/-!
C08, documents that arrive late: the exact condition under which the sequence keeps working.

`FitsIn held d` (in `Verif.Seq.Late`) says: either a held document with a greater number has
begun when `d` begins, or `d` ends strictly before every held document with a greater number begins.
-/
namespace Verif.Seq

/-- Histories in which every document passed to `add_document` fits in, with `new_document` and
`discard_before` in between. -/
inductive Late (cfg : Cfg) (agid : Option String) : State → Prop
  | init : Late cfg agid (State.init cfg agid)
  | add {s d} : Late cfg agid s → WellTimed d → FitsIn s.docs d → Late cfg agid (addDocument s d).1
  | new {s} : Late cfg agid s → Late cfg agid (newDocument s).1
  | drop {s d s'} : Late cfg agid s → d ∈ s.docs → discardBefore s d = some s' → Late cfg agid s'

theorem Late.tidy {cfg : Cfg} {agid : Option String} {s : State} (h : Late cfg agid s) : Tidy s := by
  induction h with
  | init => exact ⟨Core.empty True, by simp [FinIn, State.init], Alt.nil⟩
  | add _ hwt hn ih => exact (late_add ih hwt hn).2
  | new _ ih => exact ⟨ih.core, ih.fin, ih.alt⟩
  | drop _ hd hs ih => exact tidy_drop ih hd hs

/-- C08, late part.  In every history of documents that fit in, the next document that fits in is
added, discarded or refused, never failing unexpectedly, and `discard_before` succeeds. -/
theorem C08_late_partial {cfg : Cfg} {agid : Option String} {s : State} (h : Late cfg agid s) :
    (∀ d, WellTimed d → FitsIn s.docs d → (addDocument s d).2.internal = false) ∧
    ∀ d, ∃ s', discardBefore s d = some s' :=
  ⟨fun _ hwt hn => (late_add h.tidy hwt hn).1, fun _ => drop_succeeds h.tidy.core h.tidy.fin⟩

theorem held_from {s : State} {d : Doc} (h : Tidy s) (hd : WellTimed d) :
    ∀ x ∈ (addDocument s d).1.docs, x = d ∨ x ∈ s.docs := by
  intro x hx
  rcases add_effect h.core hd with ⟨_, hs⟩ | ⟨_, _, hdocs, _⟩ | ⟨_, hdc, _⟩ | ⟨_, hdc, _⟩ | ⟨_, _, hdocs, _⟩
  · rw [hs] at hx; exact .inr hx
  · rcases (hdocs x).mp hx with h' | h'
    · exact .inl h'
    · exact .inr h'.1
  · rw [hdc] at hx; exact .inr hx
  · rw [hdc] at hx; exact .inr hx
  · exact .inr ((hdocs x).mp hx).1

/-- Of two documents, `a` arriving first: if `b` is the older one, then `a` does not begin after
`b`, or `b` ends strictly before `a` begins. -/
def LateOk (a b : Doc) : Prop :=
  b.num < a.num → a.cbegin ≤ b.cbegin ∨ ∃ e, b.cend = some e ∧ e < a.cbegin

theorem run_lateOk : ∀ (ds : List Doc) (s : State), Tidy s → (∀ x ∈ s.docs, ∀ d ∈ ds, LateOk x d) →
    (∀ d ∈ ds, WellTimed d) → ds.Pairwise LateOk → ∀ o ∈ (run s ds).2, o.internal = false := by
  intro ds
  induction ds with
  | nil => intro s _ _ _ _ o ho; simp [run] at ho
  | cons d ds ih =>
    intro s h hlt hw hp o ho
    rw [List.pairwise_cons] at hp
    have hd := hw d List.mem_cons_self
    have hfit : FitsIn s.docs d := by
      by_cases hdom : ∃ z ∈ s.docs, d.num < z.num ∧ z.cbegin ≤ d.cbegin
      · exact .inl hdom
      · refine .inr (fun y hy hn => ?_)
        rcases hlt y hy d List.mem_cons_self hn with h' | h'
        · exact absurd ⟨y, hy, hn, h'⟩ hdom
        · exact h'
    have hadd := late_add h hd hfit
    simp only [run] at ho
    rcases List.mem_cons.mp ho with ho | ho
    · rw [ho]; exact hadd.1
    · refine ih _ hadd.2 ?_ (fun x hx => hw x (List.mem_cons_of_mem _ hx)) hp.2 o ho
      intro x hx e he
      rcases held_from h hd x hx with rfl | hx'
      · exact hp.1 e he
      · exact hlt x hx' e (List.mem_cons_of_mem _ he)

/-- C08, arrival orders.  A run of documents never fails unexpectedly when each document that
arrives after a newer one either begins no earlier than it or ends strictly before it begins.
Documents in sequence order and documents that do not touch are special cases. -/
theorem C08_arrival_partial (cfg : Cfg) (agid : Option String) (ds : List Doc)
    (hds : ∀ d ∈ ds, WellTimed d) (hok : ds.Pairwise LateOk) :
    ∀ o ∈ (run (State.init cfg agid) ds).2, o.internal = false :=
  run_lateOk ds _ ⟨Core.empty True, by simp [FinIn, State.init], Alt.nil⟩ (by simp [State.init]) hds hok

/-- C08, the exact condition.  After a history of documents that fit in, let `d` be a well timed
document that is not refused.  Then `d` fits in if and only if neither adding `d` nor adding any
newer documents in sequence order after it ever fails unexpectedly. -/
theorem C08_exact_partial {cfg : Cfg} {agid : Option String} {s : State} (h : Late cfg agid s) {d : Doc}
    (hwt : WellTimed d) (hcomp : (addDocument s d).2.refused = false) :
    FitsIn s.docs d ↔
    ∀ ds : List Doc, (∀ x ∈ ds, WellTimed x) → ds.Pairwise (fun a b => a.num < b.num) →
      (∀ x ∈ ds, d.num < x.num ∧ ∀ y ∈ s.docs, y.num < x.num) →
      ∀ o ∈ (run s (d :: ds)).2, o.internal = false := by
  constructor
  · intro hfit ds hw hp hnew o ho
    have hadd := late_add h.tidy hwt hfit
    simp only [run] at ho
    rcases List.mem_cons.mp ho with ho | ho
    · rw [ho]; exact hadd.1
    · refine run_lateOk ds _ hadd.2 ?_ hw (hp.imp (fun hlt hgt => by omega)) o ho
      intro x hx e he hgt
      obtain ⟨h1, h2⟩ := hnew e he
      rcases held_from h.tidy hwt x hx with rfl | hx'
      · omega
      · have := h2 x hx'; omega
  · intro hall
    apply Classical.byContradiction
    intro hfit
    cases hc : checkCompat s d with
    | error o =>
      have := checkCompat_error hc
      have he : addDocument s d = (s, o) := by unfold addDocument; rw [hc]
      rw [he] at hcomp
      rw [this] at hcomp
      simp at hcomp
    | ok g =>
      obtain ⟨ds, hw, hp, hnew, o, ho, hi⟩ := unfit_fails h.tidy hwt hc hfit
      rw [hall ds hw hp hnew o ho] at hi
      simp at hi

/-- Late documents of every kind: one before its successor, one inside an older document, one that
overrides, one that is discarded. -/
example :
    let ds := [mk 0 1 0 (some 30), mk 1 9 50 none, mk 2 5 10 (some 20), mk 3 7 15 (some 40), mk 4 8 12 (some 49),
      mk 5 2 60 none, mk 6 10 70 (some 80)]
    ds.Pairwise LateOk ∧ (∀ d ∈ ds, WellTimed d) ∧
    (run (State.init exCfg none) ds).2 =
      [.inserted, .inserted, .inserted, .inserted, .inserted, .discarded, .inserted] := by
  refine ⟨?_, ?_, by decide⟩
  · simp [LateOk, mk]
  · intro d hd
    simp only [List.mem_cons, List.not_mem_nil, or_false] at hd
    rcases hd with rfl | rfl | rfl | rfl | rfl | rfl | rfl <;>
      exact ⟨by simp [mk], by intro e he; simp [mk] at he ⊢ <;> omega⟩

/-- A history with a document that fits in and one that does not. -/
example : ∃ s, Late exCfg none s ∧ s.docs.map (·.num) = [3, 9] ∧
    FitsIn s.docs (mk 5 5 21 (some 29)) ∧ ¬ FitsIn s.docs (mk 5 5 21 (some 30)) ∧
    (addDocument s (mk 5 5 21 (some 30))).2 = .inserted := by
  have hw : ∀ u n b e, 0 ≤ b → b < e → WellTimed (mk u n b (some e)) := by
    intro u n b e h0 h1
    exact ⟨h0, by intro x hx; simp [mk] at hx ⊢; omega⟩
  have h1 := Late.add (d := mk 0 9 30 (some 40)) (Late.init (cfg := exCfg) (agid := none))
    (hw _ _ _ _ (by omega) (by omega)) (.inr (by simp [State.init]))
  have hd1 : (addDocument (State.init exCfg none) (mk 0 9 30 (some 40))).1.docs = [mk 0 9 30 (some 40)] := by decide
  have h2 := Late.add (d := mk 1 3 10 (some 20)) h1 (hw _ _ _ _ (by omega) (by omega))
    (.inr (by rw [hd1]; simp [mk]))
  have hd2 : (addDocument (addDocument (State.init exCfg none) (mk 0 9 30 (some 40))).1 (mk 1 3 10 (some 20))).1.docs =
      [mk 1 3 10 (some 20), mk 0 9 30 (some 40)] := by decide
  refine ⟨_, h2, by decide, ?_, ?_, by decide⟩
  · rw [hd2]; right; simp [mk]
  · rw [hd2]; simp [FitsIn, mk]

end Verif.Seq
