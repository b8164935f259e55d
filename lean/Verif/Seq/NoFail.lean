import Verif.Seq.InOrder
import Verif.Seq.Props

/-!
C08: `add_document` of a compatible, well timed document never fails unexpectedly.

The full statement is

    ∀ cfg agid ds, (∀ d ∈ ds, WellTimed d) → ∀ o ∈ (run (State.init cfg agid) ds).2, o.internal = false

and it is false of the code (`C08_false_open_ended`, `C08_false_swapped`).  Proved instead: it holds
for histories in sequence order, also when old documents are dropped in between; it holds in every
arrival order for documents that do not touch each other; and in any history the only unexpected
errors are the two the counterexamples show.
-/
namespace Verif.Seq

/-- Counterexample: an open ended document arriving after its successor makes `add_document`
raise `TypeError`. -/
theorem C08_false_open_ended :
    ¬ ∀ cfg agid ds, (∀ d ∈ ds, WellTimed d) → ∀ o ∈ (run (State.init cfg agid) ds).2, o.internal = false := by
  intro h
  have := h exCfg none [mk 0 2 10 (some 20), mk 1 1 0 none] (by
    intro d hd
    simp only [List.mem_cons, List.not_mem_nil, or_false] at hd
    rcases hd with rfl | rfl <;> exact ⟨by simp [mk], by intro e he; simp [mk] at he ⊢; try omega⟩) .typeError (by decide)
  simp [Outcome.internal, Outcome.ok, Outcome.refused] at this

/-- Counterexample: two abutting closed documents arriving in the wrong order make the next
`add_document` raise `ValueError`. -/
theorem C08_false_swapped :
    (run (State.init exCfg none) [mk 0 2 10 (some 20), mk 1 1 0 (some 10), mk 2 3 25 (some 30)]).2 =
      [.inserted, .inserted, .valueError] := by decide

/-- Histories in which every document passed to `add_document` is newer than all held ones, with
`new_document` and `discard_before` in between. -/
inductive InOrder (cfg : Cfg) (agid : Option String) : State → Prop
  | init : InOrder cfg agid (State.init cfg agid)
  | add {s d} : InOrder cfg agid s → WellTimed d → (∀ x ∈ s.docs, x.num < d.num) →
      InOrder cfg agid (addDocument s d).1
  | new {s} : InOrder cfg agid s → InOrder cfg agid (newDocument s).1
  | drop {s d s'} : InOrder cfg agid s → d ∈ s.docs → discardBefore s d = some s' → InOrder cfg agid s'

theorem InOrder.tidy {cfg : Cfg} {agid : Option String} {s : State} (h : InOrder cfg agid s) : Tidy s := by
  induction h with
  | init => exact ⟨Core.empty True, by simp [FinIn, State.init], Alt.nil⟩
  | add _ hwt hn ih => exact (tidy_add ih hwt hn).2
  | new _ ih => exact ⟨ih.core, ih.fin, ih.alt⟩
  | drop _ hd hs ih => exact tidy_drop ih hd hs

/-- C08, in-order part.  In every history in sequence order the next newer document is added,
discarded or refused, never failing unexpectedly, and `discard_before` succeeds. -/
theorem C08_in_order_partial {cfg : Cfg} {agid : Option String} {s : State} (h : InOrder cfg agid s) :
    (∀ d, WellTimed d → (∀ x ∈ s.docs, x.num < d.num) → (addDocument s d).2.internal = false) ∧
    ∀ d, ∃ s', discardBefore s d = some s' :=
  ⟨fun _ hwt hn => (tidy_add h.tidy hwt hn).1, fun _ => drop_succeeds h.tidy.core h.tidy.fin⟩

/-- C08, in-order part, for whole runs: increasing numbers never fail unexpectedly. -/
theorem C08_increasing_partial (cfg : Cfg) (agid : Option String) (ds : List Doc)
    (hds : ∀ d ∈ ds, WellTimed d) (hinc : ds.Pairwise (fun a b => a.num < b.num)) :
    ∀ o ∈ (run (State.init cfg agid) ds).2, o.internal = false := by
  have key : ∀ (ds : List Doc) (s : State), Tidy s → (∀ x ∈ s.docs, ∀ d ∈ ds, x.num < d.num) →
      (∀ d ∈ ds, WellTimed d) → ds.Pairwise (fun a b => a.num < b.num) →
      ∀ o ∈ (run s ds).2, o.internal = false := by
    intro ds
    induction ds with
    | nil => intro s _ _ _ _ o ho; simp [run] at ho
    | cons d ds ih =>
      intro s h hlt hw hp o ho
      rw [List.pairwise_cons] at hp
      have hd := hw d List.mem_cons_self
      have hadd := tidy_add h hd (fun x hx => hlt x hx d List.mem_cons_self)
      simp only [run] at ho
      rcases List.mem_cons.mp ho with ho | ho
      · rw [ho]; exact hadd.1
      · refine ih _ hadd.2 ?_ (fun x hx => hw x (List.mem_cons_of_mem _ hx)) hp.2 o ho
        intro x hx e he
        have hx' : x = d ∨ x ∈ s.docs := by
          rcases add_effect h.core hd with ⟨_, hs⟩ | ⟨_, _, hdocs, _⟩ | ⟨_, hdc, _⟩ | ⟨_, hdc, _⟩ |
            ⟨_, _, hdocs, _⟩
          · rw [hs] at hx; exact .inr hx
          · rcases (hdocs x).mp hx with h' | h'
            · exact .inl h'
            · exact .inr h'.1
          · rw [hdc] at hx; exact .inr hx
          · rw [hdc] at hx; exact .inr hx
          · exact .inr ((hdocs x).mp hx).1
        rcases hx' with rfl | hx'
        · exact hp.1 e he
        · exact hlt x hx' e (List.mem_cons_of_mem _ he)
  exact key ds _ ⟨Core.empty True, by simp [FinIn, State.init], Alt.nil⟩ (by simp [State.init]) hds hinc

/-- Ordered documents that overlap, are overridden and are open ended. -/
example :
    let ds := [mk 0 1 0 (some 10), mk 1 2 20 none, mk 2 3 5 none, mk 3 4 5 (some 6), mk 4 9 30 (some 40)]
    ds.Pairwise (fun a b => a.num < b.num) ∧
    (run (State.init exCfg none) ds).2 = [.inserted, .inserted, .inserted, .inserted, .inserted] := by
  decide

/-- An in-order history that drops old documents and goes on. -/
example : ∃ s, InOrder exCfg none s ∧ s.docs.map (·.num) = [2, 3] := by
  have hw : ∀ u n b e, 0 ≤ b → b < e → WellTimed (mk u n b (some e)) := by
    intro u n b e h0 h1
    exact ⟨h0, by intro x hx; simp [mk] at hx ⊢; omega⟩
  have h1 := InOrder.add (d := mk 0 1 0 (some 10)) (InOrder.init (cfg := exCfg) (agid := none))
    (hw _ _ _ _ (by omega) (by omega)) (by decide)
  have h2 := InOrder.add (d := mk 1 2 5 (some 20)) h1 (hw _ _ _ _ (by omega) (by omega)) (by decide)
  have h3 := InOrder.drop (d := mk 1 2 5 (some 20)) h2 (by decide) (s' := _) rfl
  have h4 := InOrder.add (d := mk 2 3 15 (some 30)) h3 (hw _ _ _ _ (by omega) (by omega)) (by decide)
  exact ⟨_, h4, by decide⟩

/-- C08, any order.  Closed documents that do not touch each other can be added in every order
(and repeatedly): each call inserts the document or refuses it for a documented reason. -/
theorem C08_separated_partial (cfg : Cfg) (agid : Option String) (ds : List Doc)
    (hcl : ∀ d ∈ ds, ∃ e, d.cend = some e ∧ d.cbegin ≤ e)
    (hsep : ∀ x ∈ ds, ∀ y ∈ ds, Separated x y) :
    ∀ o ∈ (run (State.init cfg agid) ds).2, o = .inserted ∨ o.refused = true := by
  have key : ∀ (ds : List Doc) (s : State), s.docs.Pairwise DRel → s.timeline = s.docs.flatMap evs →
      (∀ x, x ∈ s.docs ∨ x ∈ ds → ∃ e, x.cend = some e ∧ x.cbegin ≤ e) →
      (∀ x, x ∈ s.docs ∨ x ∈ ds → ∀ y, y ∈ s.docs ∨ y ∈ ds → Separated x y) →
      ∀ o ∈ (run s ds).2, o = .inserted ∨ o.refused = true := by
    intro ds
    induction ds with
    | nil => intro s _ _ _ _ o ho; simp [run] at ho
    | cons d ds ih =>
      intro s hp htl hc hs o ho
      have hmem : ∀ x, x ∈ s.docs ∨ x ∈ ds → x ∈ s.docs ∨ x ∈ d :: ds := by
        rintro x (h | h)
        · exact .inl h
        · exact .inr (List.mem_cons_of_mem _ h)
      cases hcc : checkCompat s d with
      | error oo =>
        have he : addDocument s d = (s, oo) := by unfold addDocument; rw [hcc]
        simp only [run, he] at ho
        rcases List.mem_cons.mp ho with ho | ho
        · rw [ho]; exact .inr (checkCompat_error hcc)
        · exact ih s hp htl (fun x hx => hc x (hmem x hx))
            (fun x hx y hy => hs x (hmem x hx) y (hmem y hy)) o ho
      | ok g =>
        have hne : ∀ x ∈ s.docs, x.num ≠ d.num := by
          intro x hx hn
          have := (existsNum_iff hp d.num).mpr ⟨x, hx, hn⟩
          rw [checkCompat_ok hcc] at this
          simp at this
        have hd : d ∈ d :: ds := List.mem_cons_self
        have hins := separated_insert hp (fun x hx => hc x (.inl hx)) (hc d (.inr hd))
          (fun x hx => hs d (.inr hd) x (.inl hx)) hne
        have he : addDocument s d = inserted { s with agid := g } d (insertDoc d s.docs)
            ((insertDoc d s.docs).flatMap evs) := by
          unfold addDocument
          rw [hcc]
          simp only
          rw [htl, hins]
        simp only [run, he] at ho
        rcases List.mem_cons.mp ho with ho | ho
        · rw [ho]; exact .inl rfl
        · refine ih _ ?_ rfl ?_ ?_ o ho
          · simp only [inserted]
            refine insertDoc_pairwise hp ?_ ?_
            · intro x hx hle
              have hlt : x.num < d.num := by have := hne x hx; omega
              obtain ⟨e, he1, he2⟩ := (hs x (.inl hx) d (.inr hd)).1 hlt
              obtain ⟨e', he1', he2'⟩ := hc x (.inl hx)
              rw [he1] at he1'; injection he1' with he1'
              exact ⟨hlt, by omega⟩
            · intro x hx hlt
              obtain ⟨e, he1, he2⟩ := (hs d (.inr hd) x (.inl hx)).1 hlt
              obtain ⟨e', he1', he2'⟩ := hc d (.inr hd)
              rw [he1] at he1'; injection he1' with he1'
              exact ⟨hlt, by omega⟩
          · intro x hx
            simp only [inserted, mem_insertDoc] at hx
            rcases hx with (rfl | hx) | hx
            · exact hc x (.inr hd)
            · exact hc x (.inl hx)
            · exact hc x (.inr (List.mem_cons_of_mem _ hx))
          · have hm : ∀ x, x ∈ (inserted { s with agid := g } d (insertDoc d s.docs)
                ((insertDoc d s.docs).flatMap evs)).1.docs ∨ x ∈ ds → x ∈ s.docs ∨ x ∈ d :: ds := by
              intro x hx
              simp only [inserted, mem_insertDoc] at hx
              rcases hx with (rfl | hx) | hx
              · exact .inr hd
              · exact .inl hx
              · exact .inr (List.mem_cons_of_mem _ hx)
            exact fun x hx y hy => hs x (hm x hx) y (hm y hy)
  exact key ds _ (by simp [State.init]) (by simp [State.init])
    (by simp only [State.init, List.not_mem_nil, false_or]; exact hcl)
    (by simp only [State.init, List.not_mem_nil, false_or]; exact hsep)

/-- Three separated documents in reverse order. -/
example :
    let ds := [mk 0 3 30 (some 40), mk 1 2 15 (some 20), mk 2 1 0 (some 10)]
    (∀ x ∈ ds, ∀ y ∈ ds, Separated x y) ∧
    (run (State.init exCfg none) ds).2 = [.inserted, .inserted, .inserted] := by
  refine ⟨?_, by decide⟩
  intro x hx y hy
  simp only [List.mem_cons, List.not_mem_nil, or_false] at hx hy
  rcases hx with rfl | rfl | rfl <;> rcases hy with rfl | rfl | rfl <;>
    exact ⟨by simp [mk], by simp [mk]⟩

theorem scanFwd_typeError {d : Doc} {bb : Option Event} {L : List Event} : ∀ {ea : Option Event},
    scanFwd d bb ea L = .typeError → d.cend = none ∧ ∃ it ∈ L, it.kind = .bgn ∧ d.num < it.doc.num := by
  induction L with
  | nil => intro ea h; simp [scanFwd] at h
  | cons it rest ih =>
    intro ea h
    have key : ∀ {ea}, scanFwd d bb ea rest = .typeError →
        d.cend = none ∧ ∃ i ∈ it :: rest, i.kind = .bgn ∧ d.num < i.doc.num := by
      intro ea h
      obtain ⟨h0, i, hi, h'⟩ := ih h
      exact ⟨h0, i, List.mem_cons_of_mem _ hi, h'⟩
    unfold scanFwd at h
    split at h
    · split at h
      · split at h
        · simp at h
        · exact key h
      · exact key h
    · rename_i hk
      split at h
      · simp at h
      · split at h
        · rename_i hgt
          split at h
          · rename_i hc
            exact ⟨hc, it, List.mem_cons_self, hk, hgt⟩
          · split at h <;> simp at h
        · exact key h

theorem insertOrDiscard_typeError {docs : List Doc} {tl : List Event} {d : Doc}
    (h : insertOrDiscard docs tl d = .typeError) :
    d.cend = none ∧ ∃ it ∈ tl, it.kind = .bgn ∧ d.num < it.doc.num ∧ d.cbegin ≤ it.time := by
  unfold insertOrDiscard at h
  split at h
  · simp at h
  · simp at h
  · split at h
    · simp at h
    · simp at h
    · rename_i hf
      obtain ⟨h0, it, hit, h1, h2⟩ := scanFwd_typeError hf
      have := List.mem_filter.mp hit
      exact ⟨h0, it, this.1, h1, h2, by simpa using this.2⟩
    · simp at h

/-- C08, error kinds.  In every history the only unexpected errors are the consistency
`ValueError`, and the `TypeError` of an open ended document that begins before a held document with
a greater number. -/
theorem C08_error_kinds_partial (cfg : Cfg) (agid : Option String) (ds : List Doc)
    (hds : ∀ d ∈ ds, WellTimed d) (d : Doc) (hd : WellTimed d) :
    let s := (run (State.init cfg agid) ds).1
    (addDocument s d).2.internal = true → (addDocument s d).2 = .valueError ∨
      (addDocument s d).2 = .typeError ∧ d.cend = none ∧
        ∃ y ∈ s.docs, d.num < y.num ∧ d.cbegin < y.cbegin := by
  have hw := Weak.run ds (Weak.init cfg agid) hds
  intro s hi
  change Weak s at hw
  have hty : ∀ (docs : List Doc) (tl : List Event), (∀ e ∈ tl, e ∈ s.timeline) →
      insertOrDiscard docs tl d = .typeError → d.cend = none ∧
        ∃ y ∈ s.docs, d.num < y.num ∧ d.cbegin ≤ y.cbegin := by
    intro docs tl hsub h
    obtain ⟨h0, it, hit, h1, h2, h3⟩ := insertOrDiscard_typeError h
    obtain ⟨g1, g2⟩ := hw.core.bgn it (hsub it hit) h1
    refine ⟨h0, it.doc, g1, h2, ?_⟩
    rw [g2] at h3; exact h3
  have hstrict : (∃ bb, scanBack d.num none ((s.timeline.filter (fun x => x.time ≤ d.cbegin)).reverse) = .ok bb) →
      (d.cend = none ∧ ∃ y ∈ s.docs, d.num < y.num ∧ d.cbegin ≤ y.cbegin) →
      d.cend = none ∧ ∃ y ∈ s.docs, d.num < y.num ∧ d.cbegin < y.cbegin := by
    rintro ⟨bb, hb⟩ ⟨h0, y, hy, h1, _⟩
    exact ⟨h0, y, hy, h1, back_above hw.core hb y hy h1⟩
  unfold addDocument at hi ⊢
  split at hi
  · rename_i o ho
    have := checkCompat_error ho
    simp [Outcome.internal, this] at hi
  rename_i g hg
  simp only at hi ⊢
  split at hi
  · simp [inserted, Outcome.internal, Outcome.ok] at hi
  · rename_i x hx
    obtain ⟨e, he, ht, hex, hn⟩ := insertOrDiscard_discarded hx
    have hxd : x ∈ s.docs := by
      cases hk : e.kind with
      | bgn => rw [← hex]; exact (hw.core.bgn e he hk).1
      | fin => rw [← hex]; exact hw.fin e he hk
    have hle : x.cbegin ≤ d.cbegin := by
      cases hk : e.kind with
      | bgn =>
        have h2 := (hw.core.bgn e he hk).2
        rw [h2, hex] at ht
        exact ht
      | fin =>
        have := (hw.core.endGe e he hk x hxd (by rw [hex])).1
        omega
    have hb : resolvedBegin { s with agid := g } x = some x.cbegin := by
      unfold resolvedBegin
      split
      · rfl
      · exact seqResolvedBegin_eq hw.core hxd
    unfold discardNew at hi
    rw [hb] at hi
    simp only at hi
    rw [if_neg (by omega)] at hi
    simp [Outcome.internal, Outcome.ok] at hi
  · rename_i hov
    obtain ⟨s', hs', hc, hdocs, hsub, hkp, hrm, hcfg, hag, hlast, hgone⟩ :=
      override_core (s := { s with agid := g }) (d := d) hw.core
    have hret := retry_insert (s := { s with agid := g }) hw.core hov hs'
    unfold retry at hi ⊢
    rw [hs'] at hi ⊢
    simp only at hi ⊢
    cases hio : insertOrDiscard s'.docs s'.timeline d with
    | ok docs tl => rw [hio] at hi; simp [inserted, Outcome.internal, Outcome.ok] at hi
    | discarded x => exact absurd hio (hret x).1
    | overridden => exact absurd hio (hret d).2
    | valueError => exact .inl rfl
    | typeError =>
      exact .inr ⟨rfl, hstrict (insertOrDiscard_overridden hov).1 (hty _ _ hsub hio)⟩
  · exact .inl rfl
  · rename_i hv
    refine .inr ⟨rfl, hstrict ?_ (hty _ _ (fun _ h => h) hv)⟩
    unfold insertOrDiscard at hv
    split at hv
    · simp at hv
    · simp at hv
    · rename_i bb hb; exact ⟨bb, hb⟩

end Verif.Seq
