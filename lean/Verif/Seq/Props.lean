import Verif.Seq.Lookup

/-!
Property theorems about document sequences (C01–C07, C09–C13).  The vocabulary is in
`Verif.Seq.Spec`; each theorem is followed by an example showing that its hypotheses are met by a
concrete history.
-/
namespace Verif.Seq

/-! ### A concrete history used in the examples -/

/-- A document of sequence "S", media time base. -/
def mk (uid num : Nat) (b : Int) (e : Option Int) : Doc :=
  { uid := uid, seqId := "S", num := num, timeBase := "media", clockMode := none, agid := none,
    cbegin := b, cend := e }

def exCfg : Cfg := { seqId := "S", timeBase := "media", clockMode := none }

/-- Delivered in order, trimmed, overridden, discarded and out of order. -/
def exDocs : List Doc :=
  [mk 0 1 0 (some 10), mk 1 4 20 (some 30), mk 2 5 5 none, mk 3 2 7 (some 8), mk 4 8 40 (some 50),
   mk 5 6 12 (some 20)]

theorem exDocs_wt : ∀ d ∈ exDocs, WellTimed d := by
  intro d hd
  simp only [exDocs, List.mem_cons, List.not_mem_nil, or_false] at hd
  rcases hd with rfl | rfl | rfl | rfl | rfl | rfl <;>
    exact ⟨by simp [mk], by intro e he; simp [mk] at he ⊢ <;> omega⟩

theorem exDocs_outcomes : (run (State.init exCfg none) exDocs).2 =
    [.inserted, .inserted, .inserted, .discarded, .inserted, .inserted] := by decide

/-! ### C01 -/

/-- C01.  After any series of `add_document` calls with well timed documents, whatever the calls
ended with, at most one held document is active at any instant. -/
theorem C01_at_most_one_active (cfg : Cfg) (agid : Option String) (ds : List Doc)
    (hds : ∀ d ∈ ds, WellTimed d) (a b : Doc) (t : Int)
    (ha : ActiveAt (run (State.init cfg agid) ds).1 a t)
    (hb : ActiveAt (run (State.init cfg agid) ds).1 b t) : a = b := by
  have hw := Weak.run ds (Weak.init cfg agid) hds
  generalize (run (State.init cfg agid) ds).1 = s at *
  have key : ∀ x y : Doc, ActiveAt s x t → ActiveAt s y t → x.num < y.num → False := by
    intro x y ⟨hx, bx, hbx, hbx', ex, hex, hex'⟩ ⟨hy, by', hby, hby', ey, hey, hey'⟩ hlt
    have hbegin : ∀ z ∈ s.docs, ∀ b, resolvedBegin s z = some b → b = z.cbegin := by
      intro z hz b h
      unfold resolvedBegin at h
      split at h
      · injection h with h; exact h.symm
      · rw [seqResolvedBegin_eq hw.core hz] at h; injection h with h; exact h.symm
    obtain ⟨te, hte, hle⟩ := end_le_next hw.core hx hy hlt
    have h1 := hbegin y hy by' hby
    have h2 := hbegin x hx bx hbx
    unfold resolvedEnd at hex
    cases hg : goneEnd s x with
    | some g =>
      rw [hg] at hex
      simp only [Option.some.injEq] at hex
      have := hw.gone _ (goneEnd_some hg)
      have := hex' g hex.symm
      simp at *
      omega
    | none =>
      rw [hg] at hex
      simp only at hex
      rw [hte] at hex
      injection hex with hex
      have := hex' te hex.symm
      omega
  rcases drel_cases hw.core.drel ha.1 hb.1 with h | h | h
  · exact h
  · exact (key a b ha hb h.1).elim
  · exact (key b a hb ha h.1).elim

example : ActiveAt (run (State.init exCfg none) exDocs).1 (mk 5 6 12 (some 20)) 15 ∧
    (∀ d ∈ exDocs, WellTimed d) :=
  ⟨⟨by decide, 12, by decide, by decide, some 20, by decide, by simp⟩, exDocs_wt⟩

/-- C01 for histories that also drop old documents and create new ones. -/
theorem C01_at_most_one_active_dropping {cfg : Cfg} {agid : Option String} {s : State} {log : List Doc}
    (h : Reach cfg agid s log) (a b : Doc) (t : Int) (ha : ActiveAt s a t) (hb : ActiveAt s b t) :
    a = b := by
  have hr := h.inv
  have key : ∀ x y : Doc, ActiveAt s x t → ActiveAt s y t → x.num < y.num → False := by
    intro x y ⟨hx, bx, hbx, hbx', ex, hex, hex'⟩ ⟨hy, by', hby, hby', ey, hey, hey'⟩ hlt
    obtain ⟨te, hte, hle⟩ := end_le_next hr.core hx hy hlt
    rw [hr.resolvedBegin hy] at hby
    injection hby with hby
    rw [hr.resolvedEnd hx, hte] at hex
    injection hex with hex
    have := hex' te hex.symm
    omega
  rcases drel_cases hr.core.drel ha.1 hb.1 with h | h | h
  · exact h
  · exact (key a b ha hb h.1).elim
  · exact (key b a hb ha h.1).elim

/-- The hypothesis on zero is needed: a document ending at time zero is reported as open ended and
stays active next to its successor. -/
theorem C01_false_for_end_at_zero : ActiveAt (run (State.init exCfg none) [mk 0 1 0 (some 0), mk 1 2 5 none]).1
      (mk 0 1 0 (some 0)) 6 ∧
    ActiveAt (run (State.init exCfg none) [mk 0 1 0 (some 0), mk 1 2 5 none]).1 (mk 1 2 5 none) 6 :=
  ⟨⟨by decide, 0, by decide, by decide, none, by decide, by simp⟩,
   ⟨by decide, 5, by decide, by decide, none, by decide, by simp⟩⟩

/-! ### C02 -/

theorem active_iff {s : State} {acc : List Doc} (h : Strong s acc) (a : Doc) (t : Int) :
    ActiveAt s a t ↔ Newest acc t a ∧ EndsAfter a t := by
  constructor
  · rintro ⟨ha, b, hb, hbt, e, he, het⟩
    unfold resolvedBegin at hb
    unfold resolvedEnd at he
    rw [h.goneEnd ha] at hb he
    simp only at hb he
    rw [seqResolvedBegin_eq h.core ha] at hb
    injection hb with hb
    obtain ⟨r, hr, h1, _⟩ := seqResolvedEnd_eq h.core ha
    rw [hr] at he
    injection he with he
    subst he
    refine ⟨⟨h.held a ha, by omega, ?_⟩, ?_⟩
    · have hheld : ∀ y ∈ s.docs, y.cbegin ≤ t → y.num ≤ a.num := by
        intro y hy hyt
        rcases Nat.lt_or_ge a.num y.num with hlt | hge
        · obtain ⟨t', ht', hle⟩ := h1 y.cbegin (.inr ⟨y, hy, hlt, rfl⟩)
          have := het t' ht'
          omega
        · exact hge
      intro y hy hyt
      rcases h.acc y hy with hy | ⟨D, hD, g1, g2⟩
      · exact hheld y hy hyt
      · have := hheld D hD (by omega)
        omega
    · intro e he
      obtain ⟨t', ht', hle⟩ := h1 e (.inl he)
      have := het t' ht'
      omega
  · rintro ⟨⟨ha, hat, hmax⟩, hend⟩
    have hheld : a ∈ s.docs := by
      rcases h.acc a ha with ha | ⟨D, hD, g1, g2⟩
      · exact ha
      · have := hmax D (h.held D hD) (by omega)
        omega
    obtain ⟨r, hr, _, h2, _⟩ := seqResolvedEnd_eq h.core hheld
    refine ⟨hheld, a.cbegin, ?_, hat, r, ?_, ?_⟩
    · unfold resolvedBegin; rw [h.goneEnd hheld]; exact seqResolvedBegin_eq h.core hheld
    · unfold resolvedEnd; rw [h.goneEnd hheld]; exact hr
    · intro x hx
      obtain ⟨_, _, _, _, hc⟩ := h2 x hx
      obtain ⟨t', ht', hle⟩ := hc trivial
      rcases ht' with ht' | ⟨y, hy, g1, g2⟩
      · have := hend t' ht'; omega
      · rw [List.nil_append] at hy
        rcases Int.lt_or_le t y.cbegin with hlt | hge
        · omega
        · have := hmax y (h.held y hy) hge; omega

/-- C02.  After an error-free history the active document at `t` is exactly the newest accepted
document that has begun, provided its own end is after `t`. -/
theorem C02_active_is_newest_begun (cfg : Cfg) (agid : Option String) (ds : List Doc)
    (hds : ∀ d ∈ ds, WellTimed d)
    (herr : ∀ o ∈ (run (State.init cfg agid) ds).2, o.internal = false) (a : Doc) (t : Int) :
    ActiveAt (run (State.init cfg agid) ds).1 a t ↔
      Newest (accepted ds (run (State.init cfg agid) ds).2) t a ∧ EndsAfter a t := by
  have h := Strong.run ds (Strong.init cfg agid) hds herr
  rw [List.nil_append] at h
  exact active_iff h a t

example : (∀ d ∈ exDocs, WellTimed d) ∧
    (∀ o ∈ (run (State.init exCfg none) exDocs).2, o.internal = false) :=
  ⟨exDocs_wt, by rw [exDocs_outcomes]; decide⟩

/-- Everything the sequence knows of a document comes from an accepted `add_document` call. -/
theorem known_accepted : ∀ (ds : List Doc) {s : State} (acc : List Doc), Weak s → (∀ d ∈ ds, WellTimed d) →
    (∀ x, (x ∈ s.docs ∨ x ∈ s.gone.map Prod.fst) → x ∈ acc) →
    ∀ x, (x ∈ (run s ds).1.docs ∨ x ∈ (run s ds).1.gone.map Prod.fst) → x ∈ acc ++ accepted ds (run s ds).2
  | [], s, acc, _, _, hs, x, hx => by simpa [run, accepted] using hs x hx
  | d :: ds, s, acc, h, hwt, hs, x, hx => by
    have hd := hwt d List.mem_cons_self
    have hkeep : ∀ y, (y ∈ s.docs ∨ y ∈ s.gone.map Prod.fst) → ∀ l : List Doc, y ∈ acc ++ l :=
      fun y hy l => List.mem_append_left _ (hs y hy)
    have hstep : ∀ y, (y ∈ (addDocument s d).1.docs ∨ y ∈ (addDocument s d).1.gone.map Prod.fst) →
        y ∈ acc ++ (if (addDocument s d).2.ok then [d] else []) := by
      intro y hy
      rcases add_effect h.core hd with ⟨ho, he⟩ | ⟨ho, -, hdocs, -, -, ⟨l, hg, hl⟩, -⟩ | ⟨ho, hdocs, -, -, -, ⟨t, -, hg⟩, -⟩ |
        ⟨ho, hdocs, -, hg, -⟩ | ⟨ho, -, hdocs, ⟨l, hg, hl⟩, -⟩
      · rw [he] at hy; exact hkeep y hy _
      · rw [ho]
        rcases hy with hy | hy
        · rcases (hdocs y).mp hy with rfl | hy
          · simp [Outcome.ok]
          · exact hkeep y (.inl hy.1) _
        · rw [hg, List.map_append, List.mem_append] at hy
          rcases hy with hy | hy
          · obtain ⟨p, hp, rfl⟩ := List.mem_map.mp hy
            exact hkeep _ (.inl ((hl p).mp hp).1) _
          · exact hkeep y (.inr hy) _
      · rw [ho]
        rw [hdocs, hg] at hy
        rcases hy with hy | hy
        · exact hkeep y (.inl hy) _
        · rw [List.map_cons, List.mem_cons] at hy
          rcases hy with rfl | hy
          · simp [Outcome.ok]
          · exact hkeep y (.inr hy) _
      · rw [hdocs, hg] at hy; exact hkeep y hy _
      · rcases hy with hy | hy
        · exact hkeep y (.inl ((hdocs y).mp hy).1) _
        · rw [hg, List.map_append, List.mem_append] at hy
          rcases hy with hy | hy
          · obtain ⟨p, hp, rfl⟩ := List.mem_map.mp hy
            exact hkeep _ (.inl ((hl p).mp hp).1) _
          · exact hkeep y (.inr hy) _
    have := known_accepted ds _ (h.add hd) (fun y hy => hwt y (List.mem_cons_of_mem _ hy)) hstep x hx
    rw [List.append_assoc] at this
    have hacc : accepted (d :: ds) (run s (d :: ds)).2 = (if (addDocument s d).2.ok then [d] else []) ++
        accepted ds (run (addDocument s d).1 ds).2 := by
      simp only [run, accepted, List.zip_cons_cons, List.filter_cons]
      cases (addDocument s d).2.ok <;> rfl
    rw [hacc]
    exact this

/-- C02.  A document whose begin or end the sequence can tell was accepted by it: asking for the times of any other document,
never given to the sequence or refused by it, raises. -/
theorem C02_only_accepted (cfg : Cfg) (agid : Option String) (ds : List Doc) (hds : ∀ d ∈ ds, WellTimed d) (x : Doc)
    (hx : resolvedBegin (run (State.init cfg agid) ds).1 x ≠ none ∨ resolvedEnd (run (State.init cfg agid) ds).1 x ≠ none) :
    x ∈ accepted ds (run (State.init cfg agid) ds).2 := by
  have key := known_accepted ds [] (Weak.init cfg agid) hds (by simp [State.init]) x
  rw [List.nil_append] at key
  apply key
  have hgone : ∀ t, goneEnd (run (State.init cfg agid) ds).1 x = some t → x ∈ (run (State.init cfg agid) ds).1.gone.map Prod.fst :=
    fun t ht => List.mem_map.mpr ⟨_, goneEnd_some ht, rfl⟩
  refine Classical.byContradiction fun hc => ?_
  rw [not_or] at hc
  have hg : goneEnd (run (State.init cfg agid) ds).1 x = none := by
    cases h : goneEnd (run (State.init cfg agid) ds).1 x with
    | none => rfl
    | some t => exact absurd (hgone t h) hc.2
  have hd : (run (State.init cfg agid) ds).1.docs.contains x = false := by simpa using hc.1
  rcases hx with hx | hx
  · apply hx; unfold resolvedBegin seqResolvedBegin; rw [hg, hd]; rfl
  · apply hx; unfold resolvedEnd seqResolvedEnd; rw [hg, hd]; rfl

/-- The two documents of the example that were refused or never given have no times. -/
example : resolvedBegin (run (State.init exCfg none) exDocs).1 (mk 0 9 3 none) = none := by decide

/-! ### C03 -/

/-- The document fits the sequence's identifier, time base and clock mode. -/
def Fits (cfg : Cfg) (x : Doc) : Prop :=
  cfg.seqId = x.seqId ∧ cfg.timeBase = x.timeBase ∧ (cfg.timeBase = "clock" → cfg.clockMode = x.clockMode)

theorem ok_iff_fits {s : State} {acc : List Doc} {d : Doc} (h : Strong s acc) (hwt : WellTimed d)
    (hi : (addDocument s d).2.internal = false) (hg : (addDocument s d).2 ≠ .authorsGroup)
    (hn : ∀ x ∈ s.docs, x.num ≠ d.num) : (addDocument s d).2.ok = true ↔ Fits s.cfg d := by
  have hex : existsNum s.docs d.num = false := by
    rw [Bool.eq_false_iff]
    intro hh
    obtain ⟨x, hx, hxn⟩ := (existsNum_iff h.core.drel _).mp hh
    exact hn x hx hxn
  constructor
  · intro hok
    unfold addDocument at hok
    split at hok
    · rename_i o ho
      have := checkCompat_error ho
      cases o <;> simp [Outcome.ok, Outcome.refused] at hok this
    · rename_i g hgc
      unfold checkCompat at hgc
      split at hgc
      · simp at hgc
      rename_i h1
      split at hgc
      · simp at hgc
      rename_i h2
      refine ⟨Classical.byContradiction fun hc => h1 (.inl hc),
        Classical.byContradiction fun hc => h1 (.inr hc), fun hcl =>
        Classical.byContradiction fun hc => h2 ⟨hcl, hc⟩⟩
  · rintro ⟨h1, h2, h3⟩
    have hcase : (∃ g, checkCompat s d = .ok g) ∨ checkCompat s d = .error .authorsGroup := by
      unfold checkCompat
      rw [if_neg (by simp [h1, h2]), if_neg (by intro hh; exact hh.2 (h3 hh.1)), if_neg (by simp [hex])]
      split
      · exact .inl ⟨_, rfl⟩
      · split
        · exact .inl ⟨_, rfl⟩
        · split
          · split
            · exact .inr rfl
            · exact .inl ⟨_, rfl⟩
          · exact .inl ⟨_, rfl⟩
    rcases hcase with ⟨g, hgc⟩ | hgc
    · rcases add_effect h.core hwt with ⟨ho, _⟩ | ⟨ho, _⟩ | ⟨ho, _⟩ | ⟨ho, _⟩ | ⟨ho, _⟩
      · exfalso
        unfold addDocument at ho
        rw [hgc] at ho
        simp only at ho
        split at ho
        · simp [inserted, Outcome.refused] at ho
        · unfold discardNew at ho; split at ho
          · simp [Outcome.refused] at ho
          · split at ho <;> simp [Outcome.refused] at ho
        · unfold retry at ho; split at ho
          · simp [Outcome.refused] at ho
          · split at ho <;> simp [inserted, Outcome.refused] at ho
        · simp [Outcome.refused] at ho
        · simp [Outcome.refused] at ho
      · rw [ho]; rfl
      · rw [ho]; rfl
      · rw [hi] at ho; simp at ho
      · rcases ho with ho | ho <;> rw [ho] at hi <;> simp [Outcome.internal, Outcome.ok, Outcome.refused] at hi
    · exfalso
      apply hg
      unfold addDocument
      rw [hgc]

theorem add_cfg (s : State) (d : Doc) : (addDocument s d).1.cfg = s.cfg := by
  unfold addDocument
  split
  · rfl
  simp only
  split
  · rfl
  · unfold discardNew; split
    · rfl
    · split <;> rfl
  · unfold retry overrideSequence
    split
    · rfl
    · rename_i s' hs'
      have : s'.cfg = s.cfg := by
        simp only at hs'
        split at hs'
        · simp at hs'
        · injection hs' with hs'; rw [← hs']
      split <;> simp [inserted, this]
  · rfl
  · rfl

theorem accepted_iff : ∀ (ds : List Doc) {s : State} {acc : List Doc}, Strong s acc →
    (∀ d ∈ ds, WellTimed d) →
    (∀ o ∈ (run s ds).2, o.internal = false ∧ o ≠ .authorsGroup) →
    ds.Pairwise (fun a b => a.num ≠ b.num) → (∀ x ∈ acc, ∀ d ∈ ds, x.num ≠ d.num) →
    ∀ x, x ∈ accepted ds (run s ds).2 ↔ x ∈ ds ∧ Fits s.cfg x := by
  intro ds
  induction ds with
  | nil => intro s acc _ _ _ _ _ x; simp [accepted]
  | cons d ds ih =>
    intro s acc h hw ho hp hacc x
    rw [List.pairwise_cons] at hp
    have ho1 := ho (addDocument s d).2 (by simp [run])
    have hok := ok_iff_fits h (hw d List.mem_cons_self) ho1.1 ho1.2
      (fun x hx => hacc x (h.held x hx) d List.mem_cons_self)
    have h' := h.add (hw d List.mem_cons_self) ho1.1
    have := ih h' (fun x hx => hw x (List.mem_cons_of_mem _ hx))
      (fun o hoo => ho o (by simp only [run]; exact List.mem_cons_of_mem _ hoo)) hp.2
      (by
        intro y hy e he
        rcases List.mem_append.mp hy with hy | hy
        · exact hacc y hy e (List.mem_cons_of_mem _ he)
        · split at hy
          · rw [List.mem_singleton] at hy; subst hy; exact hp.1 e he
          · simp at hy) x
    simp only [run]
    rw [accepted_cons, List.mem_append, this, add_cfg]
    cases hk : (addDocument s d).2.ok with
    | true =>
      have hf := hok.mp hk
      simp only [if_true, List.mem_cons, List.not_mem_nil, or_false]
      constructor
      · rintro (rfl | h'')
        · exact ⟨.inl rfl, hf⟩
        · exact ⟨.inr h''.1, h''.2⟩
      · rintro ⟨rfl | h1, h2⟩
        · exact .inl rfl
        · exact .inr ⟨h1, h2⟩
    | false =>
      have hf : ¬ Fits s.cfg d := fun hh => by rw [hok.mpr hh] at hk; simp at hk
      simp only [Bool.false_eq_true, if_false, List.not_mem_nil, false_or, List.mem_cons]
      constructor
      · rintro ⟨h1, h2⟩; exact ⟨.inr h1, h2⟩
      · rintro ⟨rfl | h1, h2⟩
        · exact absurd h2 hf
        · exact ⟨h1, h2⟩

/-- C03.  The same documents (with distinct numbers) in two arrival orders, both runs free of
internal errors and authors-group refusals: the same document is active at every instant. -/
theorem C03_delivery_order_irrelevant (cfg : Cfg) (agid : Option String) (ds₁ ds₂ : List Doc)
    (hperm : ds₁.Perm ds₂) (hds : ∀ d ∈ ds₁, WellTimed d)
    (hnum : ds₁.Pairwise (fun a b => a.num ≠ b.num))
    (h₁ : ∀ o ∈ (run (State.init cfg agid) ds₁).2, o.internal = false ∧ o ≠ .authorsGroup)
    (h₂ : ∀ o ∈ (run (State.init cfg agid) ds₂).2, o.internal = false ∧ o ≠ .authorsGroup)
    (a : Doc) (t : Int) :
    ActiveAt (run (State.init cfg agid) ds₁).1 a t ↔ ActiveAt (run (State.init cfg agid) ds₂).1 a t := by
  have hds₂ : ∀ d ∈ ds₂, WellTimed d := fun d hd => hds d (hperm.mem_iff.mpr hd)
  have hnum₂ : ds₂.Pairwise (fun a b => a.num ≠ b.num) :=
    hperm.pairwise hnum (fun h => fun h' => h h'.symm)
  rw [C02_active_is_newest_begun cfg agid ds₁ hds (fun o ho => (h₁ o ho).1),
    C02_active_is_newest_begun cfg agid ds₂ hds₂ (fun o ho => (h₂ o ho).1)]
  have hmem : ∀ x, x ∈ accepted ds₁ (run (State.init cfg agid) ds₁).2 ↔
      x ∈ accepted ds₂ (run (State.init cfg agid) ds₂).2 := by
    intro x
    rw [accepted_iff ds₁ (Strong.init cfg agid) hds h₁ hnum (by simp),
      accepted_iff ds₂ (Strong.init cfg agid) hds₂ h₂ hnum₂ (by simp), hperm.mem_iff]
  unfold Newest
  simp only [hmem]

/-- Two different arrival orders of four documents, with a trim, an override and a discard. -/
example :
    let ds₁ := [mk 0 1 0 (some 10), mk 1 2 20 (some 30), mk 2 3 5 (some 15), mk 3 4 40 none]
    let ds₂ := [mk 0 1 0 (some 10), mk 2 3 5 (some 15), mk 1 2 20 (some 30), mk 3 4 40 none]
    ds₁.Perm ds₂ ∧ (∀ d ∈ ds₁, WellTimed d) ∧ ds₁.Pairwise (fun a b => a.num ≠ b.num) ∧
    (∀ o ∈ (run (State.init exCfg none) ds₁).2, o.internal = false ∧ o ≠ .authorsGroup) ∧
    (∀ o ∈ (run (State.init exCfg none) ds₂).2, o.internal = false ∧ o ≠ .authorsGroup) := by
  refine ⟨by decide, ?_, by decide, by decide, by decide⟩
  intro d hd
  simp only [List.mem_cons, List.not_mem_nil, or_false] at hd
  rcases hd with rfl | rfl | rfl | rfl <;>
    exact ⟨by simp [mk], by intro e he; simp [mk] at he ⊢ <;> omega⟩

/-! ### Reachable example state -/

theorem reach_run {cfg : Cfg} {agid : Option String} : ∀ (ds : List Doc) {s : State} {log : List Doc},
    Reach cfg agid s log → (∀ d ∈ ds, WellTimed d) → (∀ d ∈ ds, d ∉ log) → ds.Nodup →
    (∀ o ∈ (run s ds).2, o.internal = false) → Reach cfg agid (run s ds).1 (ds.reverse ++ log) := by
  intro ds
  induction ds with
  | nil => intro s log h _ _ _ _; exact h
  | cons d ds ih =>
    intro s log h hw hl hn ho
    rw [List.nodup_cons] at hn
    have h' := Reach.add h (hw d List.mem_cons_self) (hl d List.mem_cons_self) (ho _ (by simp [run]))
    have := ih h' (fun x hx => hw x (List.mem_cons_of_mem _ hx)) (by
        intro x hx hm
        rcases List.mem_cons.mp hm with rfl | hm
        · exact hn.1 hx
        · exact hl x (List.mem_cons_of_mem _ hx) hm) hn.2
      (fun o hoo => ho o (by simp only [run]; exact List.mem_cons_of_mem _ hoo))
    simpa [run] using this

/-- The state after the example history is reachable. -/
theorem ex_reach : Reach exCfg none (run (State.init exCfg none) exDocs).1 exDocs.reverse := by
  have := reach_run exDocs (Reach.init (cfg := exCfg) (agid := none)) exDocs_wt (by simp) (by decide)
    (by rw [exDocs_outcomes]; decide)
  simpa using this

/-! ### C04 -/

theorem nextDoc_some {docs : List Doc} (h : docs.Pairwise DRel) {x y : Doc} (hx : nextDoc docs x = some y) :
    y ∈ docs ∧ x.num < y.num ∧ ∀ z ∈ docs, x.num < z.num → y.cbegin ≤ z.cbegin := by
  unfold nextDoc at hx
  refine ⟨List.mem_of_find?_eq_some hx, by simpa using List.find?_some hx, ?_⟩
  intro z hz hlt
  exact find?_first (R := fun a b : Doc => a.cbegin ≤ b.cbegin) (fun _ => Int.le_refl _)
    (h.imp fun hh => by have := hh.2; omega) hx z hz (by simpa using hlt)

/-- C04.  In every reachable state a held document's resolved begin is its computed begin, and its
resolved end is the earlier of its computed end and the begin of the next document. -/
theorem C04_resolved_times {cfg : Cfg} {agid : Option String} {s : State} {log : List Doc}
    (h : Reach cfg agid s log) (x : Doc) (hx : x ∈ s.docs) :
    resolvedBegin s x = some x.cbegin ∧
    resolvedEnd s x = some (earliest x.cend ((nextDoc s.docs x).map (·.cbegin))) := by
  have hr := h.inv
  refine ⟨hr.resolvedBegin hx, ?_⟩
  rw [hr.resolvedEnd hx]
  obtain ⟨r, hre, h1, h2, _⟩ := seqResolvedEnd_eq hr.core hx
  rw [hre]
  congr 1
  have hn : nextDoc s.docs x = none → ∀ y ∈ s.docs, ¬ x.num < y.num := by
    intro hn y hy
    unfold nextDoc at hn
    simpa using List.find?_eq_none.mp hn y hy
  -- the least candidate
  have least : ∀ t, Cand s.docs x t → (∀ t', Cand s.docs x t' → t ≤ t') → r = some t := by
    intro t ht hmin
    obtain ⟨t', hr', hle⟩ := h1 t ht
    obtain ⟨_, _, _, _, hc⟩ := h2 t' hr'
    obtain ⟨t'', ht'', hle'⟩ := hc trivial
    rw [List.nil_append] at ht''
    have := hmin t'' ht''
    rw [hr']; congr 1; omega
  cases hc : x.cend with
  | none =>
    cases hnx : nextDoc s.docs x with
    | none =>
      simp only [earliest, Option.map_none]
      cases r with
      | none => rfl
      | some t =>
        obtain ⟨_, _, _, _, hcc⟩ := h2 t rfl
        obtain ⟨t', ht', _⟩ := hcc trivial
        rcases ht' with ht' | ⟨y, hy, g1, _⟩
        · rw [hc] at ht'; simp at ht'
        · rw [List.nil_append] at hy; exact absurd g1 (hn hnx y hy)
    | some y =>
      obtain ⟨hy, hlt, hmin⟩ := nextDoc_some hr.core.drel hnx
      simp only [earliest, Option.map_some]
      apply least
      · exact .inr ⟨y, hy, hlt, rfl⟩
      · rintro t' (ht' | ⟨z, hz, g1, g2⟩)
        · rw [hc] at ht'; simp at ht'
        · have := hmin z hz g1; omega
  | some e =>
    cases hnx : nextDoc s.docs x with
    | none =>
      simp only [earliest, Option.map_none]
      apply least
      · exact .inl hc
      · rintro t' (ht' | ⟨z, hz, g1, g2⟩)
        · rw [hc] at ht'; injection ht' with ht'; omega
        · exact absurd g1 (hn hnx z hz)
    | some y =>
      obtain ⟨hy, hlt, hmin⟩ := nextDoc_some hr.core.drel hnx
      simp only [earliest, Option.map_some]
      apply least
      · rcases Int.le_total e y.cbegin with hle | hle
        · rw [Int.min_eq_left hle]; exact .inl hc
        · rw [Int.min_eq_right hle]; exact .inr ⟨y, hy, hlt, rfl⟩
      · rintro t' (ht' | ⟨z, hz, g1, g2⟩)
        · rw [hc] at ht'; injection ht' with ht'; omega
        · have := hmin z hz g1; omega

example : mk 2 5 5 none ∈ (run (State.init exCfg none) exDocs).1.docs ∧
    resolvedEnd (run (State.init exCfg none) exDocs).1 (mk 2 5 5 none) = some (some 12) := by decide

/-! ### C05 -/

/-- C05.  Whatever the `add_document` calls did, among held documents a greater number means a
strictly later begin. -/
theorem C05_number_order_is_time_order (cfg : Cfg) (agid : Option String) (ds : List Doc)
    (hds : ∀ d ∈ ds, WellTimed d) (x y : Doc) (hx : x ∈ (run (State.init cfg agid) ds).1.docs)
    (hy : y ∈ (run (State.init cfg agid) ds).1.docs) : x.num < y.num ↔ x.cbegin < y.cbegin :=
  drel_num_lt (Weak.run ds (Weak.init cfg agid) hds).core.drel hx hy

/-- C05 for histories that also drop old documents. -/
theorem C05_number_order_is_time_order_dropping {cfg : Cfg} {agid : Option String} {s : State}
    {log : List Doc} (h : Reach cfg agid s log) (x y : Doc) (hx : x ∈ s.docs) (hy : y ∈ s.docs) :
    (x.num < y.num ↔ x.cbegin < y.cbegin) ∧ (x.num = y.num → x = y) :=
  ⟨drel_num_lt h.inv.core.drel hx hy, drel_eq h.inv.core.drel hx hy⟩

example : (run (State.init exCfg none) exDocs).1.docs.map (·.num) = [1, 5, 6, 8] := by decide

/-! ### C06 -/

/-- C06.  After any history, a document fitting the sequence is refused with a collision error
exactly when a held document has its number, and then nothing changes. -/
theorem C06_collision (cfg : Cfg) (agid : Option String) (ds : List Doc)
    (hds : ∀ d ∈ ds, WellTimed d) (d : Doc) :
    let s := (run (State.init cfg agid) ds).1
    (Fits s.cfg d → ((addDocument s d).2 = .collision ↔ ∃ x ∈ s.docs, x.num = d.num)) ∧
    ((addDocument s d).2 = .collision → (addDocument s d).1 = s) := by
  have hw := Weak.run ds (Weak.init cfg agid) hds
  intro s
  change Weak s at hw
  have hno : ∀ g, checkCompat s d = .ok g → (addDocument s d).2 ≠ .collision := by
    intro g hg
    unfold addDocument
    rw [hg]
    simp only
    split
    · simp [inserted]
    · unfold discardNew; split
      · simp
      · split <;> simp
    · unfold retry; split
      · simp
      · split <;> simp [inserted]
    · simp
    · simp
  refine ⟨?_, ?_⟩
  · rintro ⟨h1, h2, h3⟩
    constructor
    · intro hc
      cases hcc : checkCompat s d with
      | ok g => exact absurd hc (hno g hcc)
      | error o =>
        have : o = .collision := by
          unfold addDocument at hc; rw [hcc] at hc; exact hc
        subst this
        unfold checkCompat at hcc
        split at hcc
        · simp at hcc
        split at hcc
        · simp at hcc
        split at hcc
        · rename_i hex; exact (existsNum_iff hw.core.drel _).mp hex
        · exfalso
          repeat' split at hcc
          all_goals simp at hcc
    · intro hex
      have hex := (existsNum_iff hw.core.drel _).mpr hex
      unfold addDocument checkCompat
      rw [if_neg (by simp [h1, h2]), if_neg (by intro hh; exact hh.2 (h3 hh.1)), if_pos hex]
  · intro hc
    cases hcc : checkCompat s d with
    | ok g => exact absurd hc (hno g hcc)
    | error o => unfold addDocument; rw [hcc]

example : (addDocument (run (State.init exCfg none) exDocs).1 (mk 9 5 100 none)).2 = .collision := by
  decide

/-! ### C07 -/

/-- C07.  A document that does not fit, or that carries a non-empty authors group different from
the adopted one, is refused and nothing changes (any state). -/
theorem C07_incompatible_refused (s : State) (d : Doc)
    (h : ¬ Fits s.cfg d ∨ ∃ g g', d.agid = some g ∧ g ≠ "" ∧ s.agid = some g' ∧ g ≠ g') :
    (addDocument s d).2.refused = true ∧ (addDocument s d).1 = s := by
  have : ∃ o, checkCompat s d = .error o := by
    unfold checkCompat
    split
    · exact ⟨_, rfl⟩
    rename_i h1
    split
    · exact ⟨_, rfl⟩
    rename_i h2
    split
    · exact ⟨_, rfl⟩
    rcases h with h | ⟨g, g', hg, hne, hg', hgg⟩
    · exact absurd ⟨Classical.byContradiction fun hc => h1 (.inl hc),
        Classical.byContradiction fun hc => h1 (.inr hc), fun hcl =>
        Classical.byContradiction fun hc => h2 ⟨hcl, hc⟩⟩ h
    · rw [hg, hg']
      simp [hne, hgg]
  obtain ⟨o, ho⟩ := this
  have hr := checkCompat_error ho
  unfold addDocument
  rw [ho]
  exact ⟨hr, rfl⟩

/-- C07.  Conversely a refusal has one of the documented reasons: the document does not fit, its
number is taken, or its authors group differs. -/
theorem C07_refused_reason (cfg : Cfg) (agid : Option String) (ds : List Doc)
    (hds : ∀ d ∈ ds, WellTimed d) (d : Doc) :
    let s := (run (State.init cfg agid) ds).1
    (addDocument s d).2.refused = true → ¬ Fits s.cfg d ∨ (∃ x ∈ s.docs, x.num = d.num) ∨
      ∃ g g', d.agid = some g ∧ g ≠ "" ∧ s.agid = some g' ∧ g ≠ g' := by
  have hw := Weak.run ds (Weak.init cfg agid) hds
  intro s hr
  change Weak s at hw
  cases hcc : checkCompat s d with
  | ok g =>
    exfalso
    unfold addDocument at hr
    rw [hcc] at hr
    simp only at hr
    split at hr
    · simp [inserted, Outcome.refused] at hr
    · unfold discardNew at hr; split at hr
      · simp [Outcome.refused] at hr
      · split at hr <;> simp [Outcome.refused] at hr
    · unfold retry at hr; split at hr
      · simp [Outcome.refused] at hr
      · split at hr <;> simp [inserted, Outcome.refused] at hr
    · simp [Outcome.refused] at hr
    · simp [Outcome.refused] at hr
  | error o =>
    unfold checkCompat at hcc
    split at hcc
    · rename_i h1
      left; rintro ⟨g1, g2, _⟩
      rcases h1 with h1 | h1
      · exact h1 g1
      · exact h1 g2
    split at hcc
    · rename_i h1
      left; rintro ⟨_, _, g3⟩; exact h1.2 (g3 h1.1)
    split at hcc
    · rename_i hex
      exact .inr (.inl ((existsNum_iff hw.core.drel _).mp hex))
    split at hcc
    · simp at hcc
    · rename_i g hg
      split at hcc
      · simp at hcc
      · rename_i hne
        split at hcc
        · rename_i g' hg'
          split at hcc
          · rename_i hgg; exact .inr (.inr ⟨g, g', hg, hne, hg', hgg⟩)
          · simp at hcc
        · simp at hcc

theorem add_agid (s : State) (d : Doc) : (addDocument s d).1.agid =
    match checkCompat s d with | .ok g => g | .error _ => s.agid := by
  unfold addDocument
  split
  · rename_i o ho; rw [ho]
  rename_i g hg
  rw [hg]
  simp only
  split
  · rfl
  · unfold discardNew; split
    · rfl
    · split <;> rfl
  · unfold retry overrideSequence
    split
    · rfl
    · rename_i s' hs'
      have : s'.agid = g := by
        simp only at hs'
        split at hs'
        · simp at hs'
        · injection hs' with hs'; rw [← hs']
      split <;> simp [inserted, this]
  · rfl
  · rfl

theorem checkCompat_agid {s : State} {d : Doc} {g : Option String} (h : checkCompat s d = .ok g) :
    g = s.agid ∨ s.agid = none ∧ g = d.agid ∧ ∃ x, d.agid = some x ∧ x ≠ "" := by
  unfold checkCompat at h
  split at h
  · simp at h
  split at h
  · simp at h
  split at h
  · simp at h
  split at h
  · injection h with h; exact .inl h.symm
  · rename_i x hx
    split at h
    · injection h with h; exact .inl h.symm
    · rename_i hne
      split at h
      · split at h
        · simp at h
        · injection h with h; exact .inl h.symm
      · rename_i hn
        injection h with h
        exact .inr ⟨hn, by rw [← h, hx], x, hx, hne⟩

/-- C07.  The authors group of the sequence is adopted only from a document that carries a
non-empty one, and only while there is none. -/
theorem C07_group_adopted_once (s : State) (d : Doc) :
    (addDocument s d).1.agid = s.agid ∨
    (s.agid = none ∧ (addDocument s d).1.agid = d.agid ∧ ∃ x, d.agid = some x ∧ x ≠ "") := by
  rw [add_agid]
  cases h : checkCompat s d with
  | ok g => exact checkCompat_agid h
  | error o => exact .inl rfl

/-- C07.  Once adopted the authors group never changes. -/
theorem C07_group_never_changes (g : String) : ∀ (ds : List Doc) (s : State), s.agid = some g →
    (run s ds).1.agid = some g := by
  intro ds
  induction ds with
  | nil => intro s h; exact h
  | cons d ds ih =>
    intro s h
    apply ih
    rcases C07_group_adopted_once s d with h' | ⟨h', _⟩
    · rw [h', h]
    · rw [h] at h'; simp at h'

example : (addDocument (State.init exCfg (some "g")) { mk 0 1 0 none with agid := some "h" }).2 =
    .authorsGroup ∧
  (addDocument (State.init exCfg none) { mk 0 1 0 none with agid := some "h" }).1.agid = some "h" := by
  decide

/-! ### C09 -/

/-- A call on the sequence. -/
inductive Call where
  | add (d : Doc)
  | new

/-- Run a series of calls, collecting the numbers of the documents added without error and of the
documents created. -/
def calls (s : State) (used : List Nat) : List Call → State × List Nat
  | [] => (s, used)
  | .add d :: cs =>
    let r := addDocument s d
    calls r.1 (if r.2.ok then d.num :: used else used) cs
  | .new :: cs =>
    let r := newDocument s
    calls r.1 (r.2 :: used) cs

theorem add_lastNum (s : State) (d : Doc) : s.lastNum ≤ (addDocument s d).1.lastNum ∧
    ((addDocument s d).2.ok = true → d.num ≤ (addDocument s d).1.lastNum) := by
  unfold addDocument
  split
  · rename_i o ho
    refine ⟨Nat.le_refl _, ?_⟩
    have := checkCompat_error ho
    cases o <;> simp [Outcome.ok, Outcome.refused] at this ⊢
  simp only
  split
  · simp [inserted]; omega
  · unfold discardNew
    split
    · simp [Outcome.ok]
    · split
      · simp [Outcome.ok]
      · simp; omega
  · unfold retry
    split
    · simp [Outcome.ok]
    · rename_i g _ s' hs'
      have hl : s'.lastNum = s.lastNum := by
        unfold overrideSequence at hs'
        simp only at hs'
        split at hs'
        · simp at hs'
        · injection hs' with hs'; rw [← hs']
      split <;> simp [inserted, Outcome.ok, hl] <;> omega
  · simp [Outcome.ok]
  · simp [Outcome.ok]

theorem calls_bound : ∀ (cs : List Call) (s : State) (used : List Nat), (∀ n ∈ used, n ≤ s.lastNum) →
    s.lastNum ≤ (calls s used cs).1.lastNum ∧ ∀ n ∈ (calls s used cs).2, n ≤ (calls s used cs).1.lastNum := by
  intro cs
  induction cs with
  | nil => intro s used h; exact ⟨Nat.le_refl _, h⟩
  | cons c cs ih =>
    intro s used h
    cases c with
    | add d =>
      obtain ⟨h1, h2⟩ := add_lastNum s d
      simp only [calls]
      obtain ⟨g1, g2⟩ := ih (addDocument s d).1
        (if (addDocument s d).2.ok then d.num :: used else used) (by
          intro n hn
          split at hn
          · rename_i hok
            rcases List.mem_cons.mp hn with rfl | hn
            · exact h2 hok
            · have := h n hn; omega
          · have := h n hn; omega)
      exact ⟨by omega, g2⟩
    | new =>
      simp only [calls]
      obtain ⟨g1, g2⟩ := ih (newDocument s).1 ((newDocument s).2 :: used) (by
        intro n hn
        rcases List.mem_cons.mp hn with rfl | hn
        · simp [newDocument]
        · have := h n hn; simp [newDocument]; omega)
      refine ⟨?_, g2⟩
      have : (newDocument s).1.lastNum = s.lastNum + 1 := rfl
      omega

/-- C09.  In every interleaving of `add_document` (with any outcomes) and `new_document`, the last
number never decreases, bounds every number added without error or created, and the next
`new_document` returns a number greater than all of them. -/
theorem C09_new_numbers_fresh (cfg : Cfg) (agid : Option String) (cs₁ cs₂ : List Call) :
    let r₁ := calls (State.init cfg agid) [] cs₁
    let r₂ := calls r₁.1 r₁.2 cs₂
    r₁.1.lastNum ≤ r₂.1.lastNum ∧ (∀ n ∈ r₂.2, n ≤ r₂.1.lastNum) ∧
      ∀ n ∈ r₂.2, n < (newDocument r₂.1).2 := by
  intro r₁ r₂
  have h₁ := calls_bound cs₁ (State.init cfg agid) [] (by simp)
  have h₂ := calls_bound cs₂ r₁.1 r₁.2 h₁.2
  refine ⟨h₂.1, h₂.2, ?_⟩
  intro n hn
  exact Nat.lt_succ_of_le (h₂.2 n hn)

example : (calls (State.init exCfg none) [] [.add (mk 0 7 0 none), .new, .add (mk 1 3 9 none)]).2 =
    [3, 8, 7] := by decide

/-! ### C10 -/

/-- The held document is shown somewhere in the range, according to its resolved times: it begins
before the end of the range and ends after its begin. -/
def ShownIn (s : State) (lo hi : Option Int) (x : Doc) : Bool :=
  (match resolvedBegin s x, hi with
    | some b, some t => decide (b < t)
    | some _, none => true
    | none, _ => false) &&
  (match lo, resolvedEnd s x with
    | some b, some (some e) => decide (b < e)
    | _, _ => true)

/-- C10.  A range lookup returns exactly the held documents shown in the range, in the order of the
sequence. -/
theorem C10_lookup_exact {cfg : Cfg} {agid : Option String} {s : State} {log : List Doc}
    (h : Reach cfg agid s log) (lo hi : Option Int)
    (hlh : ∀ a b, lo = some a → hi = some b → a ≤ b) :
    lookupRange s.timeline lo hi = s.docs.filter (ShownIn s lo hi) ∧
      (lookupRange s.timeline lo hi).Pairwise (fun x y => x.num < y.num ∧ x.cbegin < y.cbegin) := by
  have hr := h.inv
  have heq : lookupRange s.timeline lo hi = s.docs.filter (ShownIn s lo hi) := by
    rw [lookupRange_eq hr.core hlh]
    apply List.filter_congr
    intro x hx
    unfold ShownIn
    rw [hr.resolvedBegin hx, hr.resolvedEnd hx]
    generalize seqResolvedEnd s x = q
    cases hi <;> cases lo <;> rcases q with _ | _ | q <;> rfl
  exact ⟨heq, by rw [heq]; exact hr.core.drel.filter _⟩

example : (lookupRange (run (State.init exCfg none) exDocs).1.timeline (some 6) (some 40)).map (·.num) =
    [5, 6] := by decide

/-- The range must not be reversed: with a begin after the end, documents that ended in between are
returned. -/
example : lookupRange (run (State.init exCfg none) [mk 0 1 0 (some 12)]).1.timeline (some 15) (some 10) =
    [mk 0 1 0 (some 12)] := by decide

/-! ### C11 -/

/-- C11.  `discard_before` of a held document removes exactly the earlier documents and leaves the
active document at every instant from its begin on unchanged. -/
theorem C11_discard_before {cfg : Cfg} {agid : Option String} {s s' : State} {log : List Doc}
    (h : Reach cfg agid s log) (d : Doc) (hd : d ∈ s.docs) (hs : discardBefore s d = some s') :
    (∀ x, x ∈ s'.docs ↔ x ∈ s.docs ∧ d.cbegin ≤ x.cbegin) ∧
    ∀ t, d.cbegin ≤ t → ∀ a, ActiveAt s' a t ↔ ActiveAt s a t := by
  have hr := h.inv
  have hr' := (h.drop hd hs).inv
  obtain ⟨hc, hdocs, htl, _⟩ := drop_core hr.core hd hs
  have hmem : ∀ x, x ∈ s'.docs ↔ x ∈ s.docs ∧ d.num ≤ x.num := by
    intro x; rw [hdocs]; simp
  have hle : ∀ x ∈ s.docs, (d.num ≤ x.num ↔ d.cbegin ≤ x.cbegin) := by
    intro x hx
    have := drel_num_lt hr.core.drel hx hd
    omega
  refine ⟨fun x => by rw [hmem]; exact ⟨fun hh => ⟨hh.1, (hle x hh.1).mp hh.2⟩,
    fun hh => ⟨hh.1, (hle x hh.1).mpr hh.2⟩⟩, ?_⟩
  -- resolved times of kept documents
  have hend : ∀ x ∈ s'.docs, resolvedEnd s' x = resolvedEnd s x := by
    intro x hx
    rw [(C04_resolved_times (h.drop hd hs) x hx).2, (C04_resolved_times h x ((hmem x).mp hx).1).2]
    congr 3
    unfold nextDoc
    rw [hdocs, List.find?_filter]
    congr 1
    funext y
    have := ((hmem x).mp hx).2
    by_cases hy : x.num < y.num
    · simp [hy]; omega
    · simp [hy]
  intro t ht a
  constructor
  · rintro ⟨ha, b, hb, hbt, e, he, het⟩
    have ha' := ((hmem a).mp ha).1
    refine ⟨ha', b, ?_, hbt, e, by rw [← hend a ha]; exact he, het⟩
    rw [hr.resolvedBegin ha', ← hb, hr'.resolvedBegin ha]
  · rintro ⟨ha, b, hb, hbt, e, he, het⟩
    have hk : d.num ≤ a.num := by
      rcases Nat.lt_or_ge a.num d.num with hlt | hge
      · obtain ⟨te, hte, hle'⟩ := end_le_next hr.core ha hd hlt
        rw [hr.resolvedEnd ha, hte] at he
        injection he with he
        have := het te he.symm
        omega
      · exact hge
    have ha' := (hmem a).mpr ⟨ha, hk⟩
    refine ⟨ha', b, ?_, hbt, e, by rw [hend a ha']; exact he, het⟩
    rw [hr'.resolvedBegin ha', ← hb, hr.resolvedBegin ha]

/-- C11.  On a sequence that was only added to — with whatever outcomes — `discard_before` of any
document succeeds. -/
theorem C11_discard_before_succeeds (cfg : Cfg) (agid : Option String) (ds : List Doc)
    (hds : ∀ d ∈ ds, WellTimed d) (d : Doc) :
    ∃ s', discardBefore (run (State.init cfg agid) ds).1 d = some s' :=
  let hw := Weak.run ds (Weak.init cfg agid) hds
  drop_succeeds hw.core hw.fin

example : (discardBefore (run (State.init exCfg none) exDocs).1 (mk 5 6 12 (some 20))).map
    (fun s => s.docs.map (·.num)) = some [6, 8] := by decide

/-- After an out-of-order delivery that left a superfluous end event behind, a second
`discard_before` raises. -/
theorem C11_second_discard_can_fail :
    let s := (run (State.init exCfg none)
      [mk 0 3 10 (some 20), mk 1 1 0 (some 15), mk 2 2 5 (some 15), mk 3 5 30 none]).1
    (do let s' ← discardBefore s (mk 2 2 5 (some 15)); discardBefore s' (mk 3 5 30 none)) = none := by
  decide

/-! ### C12 -/

/-- A window `[lo, hi)` with optional bounds contains the instant. -/
def InWindow (w : Doc × Option Int × Option Int) (t : Int) : Prop :=
  (∀ b, w.2.1 = some b → b ≤ t) ∧ (∀ e, w.2.2 = some e → t < e)

/-- The windows follow each other: each begins where the one before ended. -/
def Consecutive (lo : Option Int) : List (Doc × Option Int × Option Int) → Prop
  | [] => True
  | w :: ws => w.2.1 = lo ∧ Consecutive w.2.2 ws

/-- The end of one window: the earlier of the range's end and the resolved end. -/
def winEnd (hi r : Option Int) : Option Int :=
  match hi with
  | none => r
  | some h => match r with
    | none => some h
    | some x => if h < x then some h else some x

theorem windows_spec {s : State} {log : List Doc} (h : RInv s log) (hi : Option Int) :
    ∀ (xs : List Doc) (cur : Option Int), xs.Pairwise DRel → (∀ x ∈ xs, x ∈ s.docs) →
    (∀ c, cur = some c → ∀ t, hi = some t → c ≤ t) →
    (∀ c, cur = some c → ∀ x ∈ xs, ∀ e, seqResolvedEnd s x = some (some e) → c ≤ e) →
    ∃ ws, windows s cur hi xs = some ws ∧ ws.map (·.1) = xs ∧ Consecutive cur ws ∧
      (∀ w ∈ ws, (∀ c, cur = some c → ∃ b, w.2.1 = some b ∧ c ≤ b) ∧
        (∀ b e, w.2.1 = some b → w.2.2 = some e → b ≤ e) ∧
        (∀ t, hi = some t → ∃ e, w.2.2 = some e ∧ e ≤ t)) ∧
      ws.Pairwise (fun w w' => ∃ e b, w.2.2 = some e ∧ w'.2.1 = some b ∧ e ≤ b) ∧
      (∀ a ∈ xs, ∀ t, a.cbegin ≤ t → (∀ e, seqResolvedEnd s a = some (some e) → t < e) →
        (∀ c, cur = some c → c ≤ t) → (∀ c, hi = some c → t < c) → ∃ w ∈ ws, w.1 = a ∧ InWindow w t) := by
  intro xs
  induction xs with
  | nil =>
    intro cur _ _ _ _
    exact ⟨[], rfl, rfl, trivial, by simp, List.Pairwise.nil, by simp⟩
  | cons x xs ih =>
    intro cur hp hm hch hce
    rw [List.pairwise_cons] at hp
    have hx := hm x List.mem_cons_self
    obtain ⟨r, hr, _, hr2, _⟩ := seqResolvedEnd_eq h.core hx
    have hre : resolvedEnd s x = some r := by rw [h.resolvedEnd hx, hr]
    -- the window's end
    have hending : ∃ ending, ending = winEnd hi r := ⟨_, rfl⟩
    obtain ⟨ending, hending⟩ := hending
    have hend : ending = earliest hi r := by
      rw [hending]
      unfold winEnd
      cases hi with
      | none => rfl
      | some t => cases r with
        | none => rfl
        | some y =>
          simp only [earliest]
          split
          · rw [Int.min_eq_left (by omega)]
          · rw [Int.min_eq_right (by omega)]
    have hle_r : ∀ e, ending = some e → ∀ y, r = some y → e ≤ y := by
      intro e he y hy
      rw [hend, hy] at he
      cases hi with
      | none => simp [earliest] at he; omega
      | some t => simp [earliest] at he; omega
    have hle_hi : ∀ t, hi = some t → ∃ e, ending = some e ∧ e ≤ t := by
      intro t ht
      rw [hend, ht]
      cases r with
      | none => exact ⟨t, rfl, Int.le_refl _⟩
      | some y => exact ⟨min t y, rfl, Int.min_le_left _ _⟩
    have hnext : ∀ y ∈ xs, ∃ e, ending = some e ∧ e ≤ y.cbegin := by
      intro y hy
      obtain ⟨t, ht, hle⟩ := end_le_next h.core hx (hm y (List.mem_cons_of_mem _ hy)) (hp.1 y hy).1
      rw [hr] at ht
      injection ht with ht
      rw [hend, ht]
      cases hi with
      | none => exact ⟨t, rfl, hle⟩
      | some c => exact ⟨min c t, rfl, by omega⟩
    have hcur : ∀ c, cur = some c → ∀ e, ending = some e → c ≤ e := by
      intro c hc e he
      rw [hend] at he
      cases hi with
      | none =>
        simp only [earliest] at he
        exact hce c hc x List.mem_cons_self e (by rw [hr, he])
      | some t =>
        have h1 := hch c hc t rfl
        cases hrr : r with
        | none => rw [hrr] at he; simp [earliest] at he; omega
        | some y =>
          have h2 := hce c hc x List.mem_cons_self y (by rw [hr, hrr])
          rw [hrr] at he; simp [earliest] at he; omega
    obtain ⟨ws, hws, hfst, hcons, hw, hpw, hcov⟩ := ih ending hp.2
      (fun y hy => hm y (List.mem_cons_of_mem _ hy))
      (by
        intro c hc t ht
        obtain ⟨e, he, hle⟩ := hle_hi t ht
        rw [hc] at he; injection he with he; omega)
      (by
        intro c hc y hy e he
        obtain ⟨e', he', hle⟩ := hnext y hy
        rw [hc] at he'; injection he' with he'
        obtain ⟨r', hr', _, h2', _⟩ := seqResolvedEnd_eq h.core (hm y (List.mem_cons_of_mem _ hy))
        rw [he] at hr'
        injection hr' with hr'
        have := (h2' e hr'.symm).1
        omega)
    refine ⟨(x, cur, ending) :: ws, ?_, by simp [hfst], ⟨rfl, hcons⟩, ?_, ?_, ?_⟩
    · unfold windows
      rw [hre]
      simp only
      have hws' : windows s (winEnd hi r) hi xs = some ws := hending ▸ hws
      rw [hending]
      show (match windows s (winEnd hi r) hi xs with
        | none => none
        | some r' => some ((x, cur, winEnd hi r) :: r')) = _
      rw [hws']
    · intro w hwm
      rcases List.mem_cons.mp hwm with rfl | hwm
      · exact ⟨fun c hc => ⟨c, hc, Int.le_refl _⟩, fun b e hb he => hcur b hb e he, hle_hi⟩
      · obtain ⟨g1, g2, g3⟩ := hw w hwm
        refine ⟨?_, g2, g3⟩
        intro c hc
        have hne : xs ≠ [] := by
          intro hxs; rw [hxs] at hfst
          rw [List.map_eq_nil_iff] at hfst
          rw [hfst] at hwm; simp at hwm
        obtain ⟨y, hy⟩ := List.exists_mem_of_ne_nil xs hne
        obtain ⟨e, he, _⟩ := hnext y hy
        obtain ⟨b, hb, hle⟩ := g1 e he
        have := hcur c hc e he
        exact ⟨b, hb, by omega⟩
    · rw [List.pairwise_cons]
      refine ⟨?_, hpw⟩
      intro w hwm
      have hne : xs ≠ [] := by
        intro hxs; rw [hxs] at hfst
        rw [List.map_eq_nil_iff] at hfst
        rw [hfst] at hwm; simp at hwm
      obtain ⟨y, hy⟩ := List.exists_mem_of_ne_nil xs hne
      obtain ⟨e, he, _⟩ := hnext y hy
      obtain ⟨b, hb, hle⟩ := (hw w hwm).1 e he
      exact ⟨e, b, he, hb, hle⟩
    · intro a ha t hat hae hct hht
      rcases List.mem_cons.mp ha with rfl | ha
      · refine ⟨_, List.mem_cons_self, rfl, hct, ?_⟩
        intro e he
        simp only at he
        rw [hend] at he
        cases hi with
        | none => exact hae e (by rw [hr]; simpa [earliest] using he)
        | some c =>
          have h1 := hht c rfl
          cases hrr : r with
          | none => rw [hrr] at he; simp [earliest] at he; omega
          | some y =>
            have h2 := hae y (by rw [hr, hrr])
            rw [hrr] at he; simp [earliest] at he; omega
      · obtain ⟨w, hwm, h1, h2⟩ := hcov a ha t hat hae (by
          intro c hc
          obtain ⟨e, he, hle⟩ := hnext a ha
          rw [hc] at he; injection he with he; omega) hht
        exact ⟨w, List.mem_cons_of_mem _ hwm, h1, h2⟩

/-- C12.  `extract_segment(lo, hi)` asks the affected documents for consecutive, non-overlapping
windows inside the range, and an instant of the range at which a document is active lies in the
window of that document and in no other. -/
theorem C12_windows {cfg : Cfg} {agid : Option String} {s : State} {log : List Doc}
    (h : Reach cfg agid s log) (lo hi : Option Int)
    (hlh : ∀ a b, lo = some a → hi = some b → a ≤ b) :
    ∃ ws, extractWindows s lo hi = some ws ∧ Consecutive lo ws ∧
      ws.map (·.1) = s.docs.filter (ShownIn s lo hi) ∧
      (∀ w ∈ ws, (∀ b, lo = some b → ∃ b', w.2.1 = some b' ∧ b ≤ b') ∧
        (∀ e, hi = some e → ∃ e', w.2.2 = some e' ∧ e' ≤ e)) ∧
      ws.Pairwise (fun w w' => ∃ e b, w.2.2 = some e ∧ w'.2.1 = some b ∧ e ≤ b) ∧
      ∀ t a, (∀ b, lo = some b → b ≤ t) → (∀ e, hi = some e → t < e) → ActiveAt s a t →
        (∃ w ∈ ws, w.1 = a ∧ InWindow w t) ∧ ∀ w ∈ ws, InWindow w t → w.1 = a := by
  have hr := h.inv
  obtain ⟨heq, hpw⟩ := C10_lookup_exact h lo hi hlh
  have hshown : ∀ x, x ∈ lookupRange s.timeline lo hi ↔ x ∈ s.docs ∧ ShownIn s lo hi x = true := by
    intro x; rw [heq]; simp [List.mem_filter]
  obtain ⟨ws, hws, hfst, hcons, hw, hdisj, hcov⟩ := windows_spec hr hi (lookupRange s.timeline lo hi) lo
    hpw (fun x hx => ((hshown x).mp hx).1) (fun c hc t ht => hlh c t hc ht)
    (by
      intro c hc x hx e he
      have h1 := (hshown x).mp hx
      have h2 := h1.2
      unfold ShownIn at h2
      rw [hr.resolvedEnd h1.1, he, hc] at h2
      simp at h2
      omega)
  refine ⟨ws, hws, hcons, by rw [hfst, heq], fun w hwm => ⟨(hw w hwm).1, (hw w hwm).2.2⟩, hdisj, ?_⟩
  rintro t a hlo hhi ⟨ha, b, hb, hbt, e, he, het⟩
  rw [hr.resolvedBegin ha] at hb
  injection hb with hb
  have hin : a ∈ lookupRange s.timeline lo hi := by
    rw [hshown]
    refine ⟨ha, ?_⟩
    unfold ShownIn
    rw [hr.resolvedBegin ha, he]
    rw [Bool.and_eq_true]
    constructor
    · cases hi with
      | none => rfl
      | some c => have := hhi c rfl; simp; omega
    · cases lo with
      | none => rfl
      | some c =>
        cases e with
        | none => rfl
        | some y => have := hlo c rfl; have := het y rfl; simp; omega
  obtain ⟨w, hwm, hwa, hwt⟩ := hcov a hin t (by omega) (by
      intro e' he'
      rw [hr.resolvedEnd ha, he'] at he
      injection he with he
      exact het e' he.symm) hlo hhi
  refine ⟨⟨w, hwm, hwa, hwt⟩, ?_⟩
  -- windows are disjoint
  have hsep : ∀ (l : List (Doc × Option Int × Option Int)),
      l.Pairwise (fun w w' => ∃ e b, w.2.2 = some e ∧ w'.2.1 = some b ∧ e ≤ b) →
      ∀ u ∈ l, ∀ v ∈ l, InWindow u t → InWindow v t → u = v := by
    intro l
    induction l with
    | nil => intro _ u hu; simp at hu
    | cons z zs ih =>
      intro hp u hu v hv hut hvt
      rw [List.pairwise_cons] at hp
      rcases List.mem_cons.mp hu with hu | hu
      · rcases List.mem_cons.mp hv with hv | hv
        · rw [hu, hv]
        · obtain ⟨e, b, h1, h2, h3⟩ := hp.1 v hv
          rw [hu] at hut
          have := hut.2 e h1; have := hvt.1 b h2; omega
      · rcases List.mem_cons.mp hv with hv | hv
        · obtain ⟨e, b, h1, h2, h3⟩ := hp.1 u hu
          rw [hv] at hvt
          have := hvt.2 e h1; have := hut.1 b h2; omega
        · exact ih hp.2 u hu v hv hut hvt
  intro w' hwm' hwt'
  rw [hsep ws hdisj w' hwm' w hwm hwt' hwt, hwa]

example : (extractWindows (run (State.init exCfg none) exDocs).1 (some 3) (some 45)).map
    (fun ws => ws.map (fun w => (w.1.num, w.2.1, w.2.2))) =
    some [(1, some 3, some 5), (5, some 5, some 12), (6, some 12, some 20), (8, some 20, some 45)] := by
  decide

/-! ### C13 -/

/-- C13.  After an error-free history, a document whose `add_document` returned normally but which
is no longer held reports a resolved end not after its begin, reports itself as discarded, and is
dominated by a held document with a greater number that begins no later. -/
theorem C13_not_held_is_discarded (cfg : Cfg) (agid : Option String) (ds : List Doc)
    (hds : ∀ d ∈ ds, WellTimed d)
    (herr : ∀ o ∈ (run (State.init cfg agid) ds).2, o.internal = false) (x : Doc)
    (hx : x ∈ accepted ds (run (State.init cfg agid) ds).2) :
    let s := (run (State.init cfg agid) ds).1
    x ∉ s.docs → (∃ e, resolvedBegin s x = some x.cbegin ∧ resolvedEnd s x = some (some e) ∧ e ≤ x.cbegin) ∧
      isDiscarded s x = some true ∧ ∃ D ∈ s.docs, x.num < D.num ∧ D.cbegin ≤ x.cbegin := by
  have h := Strong.run ds (Strong.init cfg agid) hds herr
  rw [List.nil_append] at h
  intro s hn
  change Strong s _ at h
  have hg : ∃ t, goneEnd s x = some t := by
    rcases h.recorded x hx with hh | ⟨p, hp, hpx⟩
    · exact absurd hh hn
    · cases hgo : goneEnd s x with
      | some t => exact ⟨t, rfl⟩
      | none =>
        unfold goneEnd at hgo
        rw [Option.map_eq_none_iff, List.find?_eq_none] at hgo
        have := hgo p hp
        simp [hpx] at this
  obtain ⟨t, ht⟩ := hg
  have hle := (h.gone _ (goneEnd_some ht)).1
  simp only at hle
  have hb : resolvedBegin s x = some x.cbegin := by unfold resolvedBegin; rw [ht]
  have he : resolvedEnd s x = some (some t) := by unfold resolvedEnd; rw [ht]
  refine ⟨⟨t, hb, he, hle⟩, ?_, ?_⟩
  · unfold isDiscarded
    rw [hb, he]
    simp; omega
  · rcases h.acc x hx with hh | hh
    · exact absurd hh hn
    · exact hh

theorem run_append (ds₁ ds₂ : List Doc) (s : State) :
    run s (ds₁ ++ ds₂) = ((run (run s ds₁).1 ds₂).1, (run s ds₁).2 ++ (run (run s ds₁).1 ds₂).2) := by
  induction ds₁ generalizing s with
  | nil => simp [run]
  | cons d ds ih => simp [run, ih]

/-- The discard records only grow. -/
theorem gone_mono : ∀ (ds : List Doc) (s : State) (hist : List Doc), Strong s hist →
    (∀ d ∈ ds, WellTimed d) → (∀ o ∈ (run s ds).2, o.internal = false) →
    ∀ p ∈ s.gone, p ∈ (run s ds).1.gone := by
  intro ds
  induction ds with
  | nil => intro s _ _ _ _ p hp; exact hp
  | cons d ds ih =>
    intro s hist h hw ho p hp
    have ho1 := ho (addDocument s d).2 (by simp [run])
    refine ih _ _ (h.add (hw d List.mem_cons_self) ho1) (fun x hx => hw x (List.mem_cons_of_mem _ hx))
      (fun o hoo => ho o (by simp only [run]; exact List.mem_cons_of_mem _ hoo)) p ?_
    rcases add_effect h.core (hw d List.mem_cons_self) with ⟨_, hs⟩ | ⟨_, _, _, _, _, ⟨l, hg, _⟩, _⟩ |
      ⟨_, _, _, _, _, ⟨t, _, hg⟩, _⟩ | ⟨_, _, _, hg, _⟩ | ⟨_, _, _, ⟨l, hg, _⟩, _⟩
    · rw [hs]; exact hp
    · rw [hg]; exact List.mem_append_right _ hp
    · rw [hg]; exact List.mem_cons_of_mem _ hp
    · rw [hg]; exact hp
    · rw [hg]; exact List.mem_append_right _ hp

/-- C13.  A document that `add_document` discards is never held afterwards, and neither is a held
document that a later one overrides. -/
theorem C13_discarded_never_held (cfg : Cfg) (agid : Option String) (ds₁ ds₂ : List Doc) (d x : Doc)
    (hds : ∀ y ∈ ds₁ ++ d :: ds₂, WellTimed y)
    (herr : ∀ o ∈ (run (State.init cfg agid) (ds₁ ++ d :: ds₂)).2, o.internal = false)
    (hx : (addDocument (run (State.init cfg agid) ds₁).1 d).2 = .discarded ∧ x = d ∨
      x ∈ (run (State.init cfg agid) ds₁).1.docs ∧
      x ∉ (addDocument (run (State.init cfg agid) ds₁).1 d).1.docs) :
    x ∉ (run (State.init cfg agid) (ds₁ ++ d :: ds₂)).1.docs := by
  rw [run_append] at herr ⊢
  simp only at herr ⊢
  have h₁ := Strong.run ds₁ (Strong.init cfg agid)
    (fun y hy => hds y (List.mem_append_left _ hy)) (fun o ho => herr o (List.mem_append_left _ ho))
  generalize (run (State.init cfg agid) ds₁).1 = s at *
  have hd : WellTimed d := hds d (by simp)
  have hdi := herr (addDocument s d).2 (List.mem_append_right _ (by simp [run]))
  have h₂ := h₁.add hd hdi
  have hds₂ : ∀ y ∈ ds₂, WellTimed y := fun y hy => hds y (by simp [hy])
  have herr₂ : ∀ o ∈ (run (addDocument s d).1 ds₂).2, o.internal = false :=
    fun o ho => herr o (List.mem_append_right _ (by simp only [run]; exact List.mem_cons_of_mem _ ho))
  have h₃ := Strong.run ds₂ h₂ hds₂ herr₂
  have hgone : ∃ p ∈ (addDocument s d).1.gone, p.1 = x := by
    rcases add_effect h₁.core hd with ⟨ho, hs⟩ | ⟨ho, _, hdocs, _, _, ⟨l, hg, hl⟩, _⟩ |
      ⟨ho, hdc, _, _, _, ⟨t, _, hg⟩, _⟩ | ⟨ho, _⟩ | ⟨ho, _⟩
    · rcases hx with ⟨hx, _⟩ | ⟨hx, hx'⟩
      · rw [hx] at ho; simp [Outcome.refused] at ho
      · rw [hs] at hx'; exact absurd hx hx'
    · rcases hx with ⟨hx, _⟩ | ⟨hx, hx'⟩
      · rw [hx] at ho; simp at ho
      · have hov : Overridden d x := by
          refine Classical.byContradiction fun hc => hx' ((hdocs x).mpr (.inr ⟨hx, hc⟩))
        rw [hg]
        exact ⟨(x, d.cbegin), List.mem_append_left _ ((hl _).mpr ⟨hx, hov, rfl⟩), rfl⟩
    · rcases hx with ⟨_, hx⟩ | ⟨hx, hx'⟩
      · rw [hg]; exact ⟨(d, t), List.mem_cons_self, hx.symm⟩
      · rw [hdc] at hx'; exact absurd hx hx'
    · rw [hdi] at ho; simp at ho
    · rcases ho with ho | ho <;> rw [ho] at hdi <;>
        simp [Outcome.internal, Outcome.ok, Outcome.refused] at hdi
  obtain ⟨p, hp, hpx⟩ := hgone
  have := gone_mono ds₂ _ _ h₂ hds₂ herr₂ p hp
  have hdom := (h₃.gone p this).2
  rw [hpx] at hdom
  exact dominated_not_mem h₃.core.drel hdom

/-- In the example history document 2 is discarded and document 4 is overridden. -/
example : isDiscarded (run (State.init exCfg none) exDocs).1 (mk 3 2 7 (some 8)) = some true ∧
    isDiscarded (run (State.init exCfg none) exDocs).1 (mk 1 4 20 (some 30)) = some true ∧
    isDiscarded (run (State.init exCfg none) exDocs).1 (mk 5 6 12 (some 20)) = some false := by decide

/-- Reading `discarded` of a held open ended document raises. -/
theorem C13_discarded_raises_when_open_ended : isDiscarded (run (State.init exCfg none) [mk 0 1 0 none]).1 (mk 0 1 0 none) = none := by decide

end Verif.Seq
