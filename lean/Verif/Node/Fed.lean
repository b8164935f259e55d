import Verif.Node.HandoverSeq
import Verif.Node.ReseqProps

/-
Lemmas for C99: a resequencer that gets its documents in sequence order.
-/
namespace Verif.Node

open Verif

/-- Specification: the documents delivered in a course of events, with the times they have at the consumer, in order of delivery. -/
def deliveries (evs : List REv) : List Seq.Doc :=
  evs.filterMap (fun e => match e with
    | .deliver now (some d) => some (arrived now d)
    | _ => none)

/-- Specification: the documents of one sequence, each newer than those delivered before, with sensible computed times. -/
structure InSeq (cfg : Seq.Cfg) (g : Option String) (ds : List Seq.Doc) : Prop where
  newer : ds.Pairwise (fun a b => a.num < b.num)
  timed : ∀ d ∈ ds, Seq.WellTimed d
  clock : ∀ d ∈ ds, clockOf d = some cfg
  group : ∀ d ∈ ds, d.agid = g

theorem InSeq.prefix {cfg : Seq.Cfg} {g : Option String} {a b : List Seq.Doc} (h : InSeq cfg g (a ++ b)) : InSeq cfg g a :=
  ⟨(List.pairwise_append.1 h.newer).1, fun d hd => h.timed d (List.mem_append_left _ hd),
    fun d hd => h.clock d (List.mem_append_left _ hd), fun d hd => h.group d (List.mem_append_left _ hd)⟩

theorem clockOf_fits {d : Seq.Doc} {cfg : Seq.Cfg} (h : clockOf d = some cfg) : Seq.Fits cfg d := by
  unfold clockOf at h
  unfold Seq.Fits
  split at h
  · split at h
    · injection h with h; subst h; simp_all
    · split at h
      · injection h with h; subst h; simp_all
      · simp at h
  · split at h
    · injection h with h; subst h; simp_all
    · split at h
      · injection h with h; subst h; simp_all
      · simp at h

theorem clockOf_arrived (now : Int) (d : CDoc) : clockOf (arrived now d) = clockOf d.doc := by
  unfold arrived
  cases d.avail <;> rfl

theorem arrived_seqId (now : Int) (d : CDoc) : (arrived now d).seqId = d.doc.seqId := by
  unfold arrived
  cases d.avail <;> rfl

theorem arrived_agid (now : Int) (d : CDoc) : (arrived now d).agid = d.doc.agid := by
  unfold arrived
  cases d.avail <;> rfl

/-- A newer fitting document is taken and overrides those that do not begin before it. -/
theorem add_newer {g : Option String} {s : Seq.State} (h : Seq.Tidy s) {d : Seq.Doc} (hd : Seq.WellTimed d)
    (hn : ∀ x ∈ s.docs, x.num < d.num) (hf : Seq.Fits s.cfg d) (hgd : d.agid = g) (hg : s.agid = none ∨ s.agid = g) :
    (Seq.addDocument s d).2 = .inserted ∧ Seq.Tidy (Seq.addDocument s d).1 ∧ (Seq.addDocument s d).1.cfg = s.cfg ∧
      ((Seq.addDocument s d).1.agid = none ∨ (Seq.addDocument s d).1.agid = g) ∧
      ∀ x, x ∈ (Seq.addDocument s d).1.docs ↔ x = d ∨ x ∈ s.docs ∧ x.cbegin < d.cbegin := by
  have hadd := Seq.tidy_add h hd hn
  obtain ⟨r, hr, hrg⟩ := compat_of_fits hf hn hgd hg
  have hag : (Seq.addDocument s d).1.agid = none ∨ (Seq.addDocument s d).1.agid = g := by
    rw [Seq.add_agid, hr]; exact hrg
  rcases Seq.add_effect h.core hd with ⟨ho, hs⟩ | ⟨ho, _, hdocs, _, _, _, _, hc, _⟩ | ⟨_, _, _, _, hdom, _⟩ | ⟨ho, _⟩ |
    ⟨ho, _, hdocs, _⟩
  · exfalso
    rcases refused_compat ho with ⟨o', ho'⟩
    rw [hr] at ho'; cases ho'
  · refine ⟨ho, hadd.2, hc, hag, fun x => (hdocs x).trans (or_congr Iff.rfl (and_congr_right fun hx => ?_))⟩
    have := hn x hx
    unfold Seq.Overridden
    omega
  · obtain ⟨D, hD, hlt', _⟩ := hdom
    have := hn D hD
    omega
  · rw [hadd.1] at ho; cases ho
  · rcases ho with ho | ho <;> · have := hadd.1; rw [ho] at this; cases this

/-- In a reachable state the active document is the newest held one that has begun, if its own end has not come. -/
theorem active_held {cfg : Seq.Cfg} {agid : Option String} {s : Seq.State} {log : List Seq.Doc} (h : Seq.Reach cfg agid s log)
    (a : Seq.Doc) (t : Int) : Seq.ActiveAt s a t ↔ Seq.Newest s.docs t a ∧ Seq.EndsAfter a t := by
  have hdrel := h.inv.core.drel
  constructor
  · rintro ⟨ha, b, hb, hbt, e, he, het⟩
    obtain ⟨h1, h2⟩ := Seq.C04_resolved_times h a ha
    rw [h1] at hb
    injection hb with hb
    rw [h2] at he
    injection he with he
    refine ⟨⟨ha, by omega, ?_⟩, ?_⟩
    · intro y hy hyt
      apply Classical.byContradiction
      intro hlt
      have hlt : a.num < y.num := by omega
      cases hn : Seq.nextDoc s.docs a with
      | none =>
        unfold Seq.nextDoc at hn
        rw [List.find?_eq_none] at hn
        exact hn y hy (by simpa using hlt)
      | some z =>
        have hz : z.cbegin ≤ y.cbegin := by
          unfold Seq.nextDoc at hn
          exact Seq.find?_first (R := fun a b : Seq.Doc => a.cbegin ≤ b.cbegin) (fun _ => Int.le_refl _)
            (hdrel.imp fun hh => by have := hh.2; omega) hn y hy (by simpa using hlt)
        rw [hn] at he
        cases hce : a.cend with
        | none =>
          rw [hce] at he
          have := het z.cbegin (by rw [← he]; rfl)
          omega
        | some x =>
          rw [hce] at he
          have := het (min x z.cbegin) (by rw [← he]; rfl)
          omega
    · intro x hx
      rw [hx] at he
      cases hn : Seq.nextDoc s.docs a with
      | none => rw [hn] at he; exact het x (by rw [← he]; rfl)
      | some z =>
        rw [hn] at he
        have := het (min x z.cbegin) (by rw [← he]; rfl)
        omega
  · rintro ⟨⟨ha, hb, hnew⟩, hend⟩
    obtain ⟨h1, h2⟩ := Seq.C04_resolved_times h a ha
    refine ⟨ha, _, h1, hb, _, h2, ?_⟩
    intro x hx
    cases hn : Seq.nextDoc s.docs a with
    | none =>
      rw [hn] at hx
      cases hce : a.cend with
      | none => rw [hce] at hx; simp [Seq.earliest] at hx
      | some y =>
        rw [hce] at hx
        have := hend y hce
        simp [Seq.earliest] at hx
        omega
    | some z =>
      have hzd := List.mem_of_find?_eq_some hn
      have hzn := List.find?_some hn
      have hzt : t < z.cbegin := by
        apply Classical.byContradiction
        intro hlt
        have := hnew z hzd (by omega)
        simp at hzn
        omega
      rw [hn] at hx
      cases hce : a.cend with
      | none =>
        rw [hce] at hx
        simp [Seq.earliest] at hx
        omega
      | some y =>
        rw [hce] at hx
        have := hend y hce
        simp [Seq.earliest] at hx
        omega

/-- What is kept up while documents come in sequence order and the timer runs: `ds` are the documents delivered so far. -/
structure Fed (cfg : Seq.Cfg) (g : Option String) (st : RState) (ds : List Seq.Doc) : Prop where
  idle : ds = [] → st.cons.first = none ∧ st.cons.seq = none
  busy : ds ≠ [] → ∃ q agid log, st.cons.first = some cfg.seqId ∧ st.cons.seq = some (some q) ∧ Seq.Reach cfg agid q log ∧
    (∀ x ∈ log, x ∈ ds) ∧ Seq.Tidy q ∧ q.cfg = cfg ∧ (q.agid = none ∨ q.agid = g) ∧ (∀ x ∈ q.docs, x ∈ ds) ∧
    ∀ x ∈ ds, x ∈ q.docs ∨ ∃ y ∈ q.docs, x.num < y.num ∧ y.cbegin ≤ max x.cbegin st.lastEnd

theorem Fed.active {cfg : Seq.Cfg} {g : Option String} {st : RState} {ds : List Seq.Doc} (h : Fed cfg g st ds) {q : Seq.State}
    (hq : st.cons.seq = some (some q)) {t : Int} (ht : st.lastEnd ≤ t) (a : Seq.Doc) :
    Seq.ActiveAt q a t ↔ Seq.Newest ds t a ∧ Seq.EndsAfter a t := by
  by_cases hds : ds = []
  · rw [(h.idle hds).2] at hq; cases hq
  obtain ⟨q', agid, log, _, hq', hr, _, _, _, _, hsub, hcov⟩ := h.busy hds
  rw [hq] at hq'
  injection hq' with hq'; injection hq' with hq'; subst hq'
  rw [active_held hr]
  refine and_congr_left fun _ => ?_
  constructor
  · rintro ⟨ha, hb, hnew⟩
    refine ⟨hsub a ha, hb, ?_⟩
    intro y hy hyt
    rcases hcov y hy with hm | ⟨z, hz, hlt, hzt⟩
    · exact hnew y hm hyt
    · have := hnew z hz (by omega)
      omega
  · rintro ⟨ha, hb, hnew⟩
    refine ⟨?_, hb, fun y hy => hnew y (hsub y hy)⟩
    rcases hcov a ha with hm | ⟨z, hz, hlt, hzt⟩
    · exact hm
    · have := hnew z (hsub z hz) (by omega)
      omega

theorem fed_deliver {src : Seq.Doc → Doc.Source} {discard : Bool} {cfg : Seq.Cfg} {g : Option String} {len : Int} {st : RState}
    {ds : List Seq.Doc} (h : Fed cfg g st ds) (now : Int) (d : CDoc) (hin : InSeq cfg g (ds ++ [arrived now d])) :
    (consume now st.cons (some d)).2 = .added .inserted ∧
    Fed cfg g (reseq (extract src discard) len st (.deliver now (some d))).1 (ds ++ [arrived now d]) := by
  have hmem : arrived now d ∈ ds ++ [arrived now d] := by simp
  have hcl := hin.clock _ hmem
  have hfit := clockOf_fits hcl
  have hid : d.doc.seqId = cfg.seqId := by rw [hfit.1, arrived_seqId]
  have hlt : ∀ x ∈ ds, x.num < (arrived now d).num := fun x hx => (List.pairwise_append.1 hin.newer).2.2 x hx _ (by simp)
  have hfirst : ¬ st.cons.first.getD d.doc.seqId ≠ d.doc.seqId := by
    by_cases hds : ds = []
    · rw [(h.idle hds).1]; simp
    · obtain ⟨q, agid, log, hf, _⟩ := h.busy hds
      rw [hf, hid]; simp
  -- the sequence the document is added to
  obtain ⟨q, agid, log, hsq, hr, hlog, htidy, hcfg, hag, hsub, hcov⟩ : ∃ q agid log, st.cons.seq.getD (newSeq d.doc) = some q ∧
      Seq.Reach cfg agid q log ∧ (∀ x ∈ log, x ∈ ds) ∧ Seq.Tidy q ∧ q.cfg = cfg ∧ (q.agid = none ∨ q.agid = g) ∧
      (∀ x ∈ q.docs, x ∈ ds) ∧ ∀ x ∈ ds, x ∈ q.docs ∨ ∃ y ∈ q.docs, x.num < y.num ∧ y.cbegin ≤ max x.cbegin st.lastEnd := by
    by_cases hds : ds = []
    · refine ⟨Seq.State.init cfg d.doc.agid, d.doc.agid, [], ?_, .init, by simp, Seq.InOrder.init.tidy, rfl, .inr ?_,
        by simp [Seq.State.init], by simp [hds]⟩
      · rw [(h.idle hds).2, Option.getD_none, newSeq, ← clockOf_arrived now d, hcl]; rfl
      · have := hin.group _ hmem
        rw [arrived_agid] at this
        exact this
    · obtain ⟨q, agid, log, _, h2, h3, h4, h5, h6, h7, h8, h9⟩ := h.busy hds
      exact ⟨q, agid, log, by rw [h2]; rfl, h3, h4, h5, h6, h7, h8, h9⟩
  have hn : ∀ x ∈ q.docs, x.num < (arrived now d).num := fun x hx => hlt x (hsub x hx)
  have hwt := hin.timed _ hmem
  obtain ⟨hins, htidy', hcfg', hag', hdocs⟩ := add_newer htidy hwt hn (by rw [hcfg]; exact hfit) (hin.group _ hmem) hag
  have hres : consume now st.cons (some d) =
      ({ first := some d.doc.seqId, seq := some (some (Seq.addDocument q (arrived now d)).1) },
        .added (Seq.addDocument q (arrived now d)).2) := by
    simp only [consume, if_neg hfirst, hsq, received_eq]
  refine ⟨by rw [hres, hins], ?_⟩
  have hst : (reseq (extract src discard) len st (.deliver now (some d))).1 =
      { st with cons := { first := some d.doc.seqId, seq := some (some (Seq.addDocument q (arrived now d)).1) } } := by
    simp only [reseq, hres]
  rw [hst]
  refine ⟨by simp, fun _ => ⟨_, agid, arrived now d :: log, by rw [hid], rfl, ?_, ?_, htidy', by rw [hcfg', hcfg], hag', ?_, ?_⟩⟩
  · refine .add hr hwt (fun hm => ?_) (by rw [hins]; rfl)
    have := hlt _ (hlog _ hm)
    omega
  · intro x hx
    rw [List.mem_cons] at hx
    rw [List.mem_append, List.mem_singleton]
    exact hx.symm.imp (hlog x) id
  · intro x hx
    rw [List.mem_append, List.mem_singleton]
    exact ((hdocs x).1 hx).symm.imp (fun h => hsub x h.1) id
  · intro x hx
    rw [List.mem_append, List.mem_singleton] at hx
    simp only [hdocs]
    have key : ∀ y ∈ q.docs, (x = y ∨ x.num < y.num ∧ y.cbegin ≤ max x.cbegin st.lastEnd) → x ∈ ds →
        (x = arrived now d ∨ x ∈ q.docs ∧ x.cbegin < (arrived now d).cbegin) ∨
        ∃ y, (y = arrived now d ∨ y ∈ q.docs ∧ y.cbegin < (arrived now d).cbegin) ∧ x.num < y.num ∧ y.cbegin ≤ max x.cbegin st.lastEnd := by
      intro y hy hxy hxd
      by_cases hb : y.cbegin < (arrived now d).cbegin
      · rcases hxy with rfl | hxy
        · exact .inl (.inr ⟨hy, hb⟩)
        · exact .inr ⟨y, .inr ⟨hy, hb⟩, hxy⟩
      · refine .inr ⟨arrived now d, .inl rfl, hlt x hxd, ?_⟩
        rcases hxy with rfl | hxy <;> omega
    rcases hx with hx | hx
    · rcases hcov x hx with hm | ⟨y, hy, hxy⟩
      · exact key x hm (.inl rfl) hx
      · exact key y hy (.inr hxy) hx
    · exact .inl (.inl hx)

/-- The timer: once a document has come, a segment is made. -/
theorem fed_tick {src : Seq.Doc → Doc.Source} {discard : Bool} {cfg : Seq.Cfg} {g : Option String} {len : Int} (hl : 0 ≤ len)
    {st : RState} {ds : List Seq.Doc} (h : Fed cfg g st ds) :
    Fed cfg g (reseq (extract src discard) len st .tick).1 ds ∧
    ((reseq (extract src discard) len st .tick).2.isSome = true ↔ ds ≠ []) := by
  by_cases hds : ds = []
  · have hs := (h.idle hds).2
    have : reseq (extract src discard) len st .tick = (st, none) := by simp only [reseq, hs]
    rw [this]
    exact ⟨h, by simp [hds]⟩
  obtain ⟨q, agid, log, hf, hq, hr, hlog, htidy, hcfg, hag, hsub, hcov⟩ := h.busy hds
  obtain ⟨ws, hws, _⟩ := Seq.C12_windows hr (some st.lastEnd) (some (st.lastEnd + len)) (by
    intro a b ha hb; injection ha with ha; injection hb with hb; omega)
  have hex : ∃ out, Doc.extractSegment q src (some st.lastEnd) (some (st.lastEnd + len)) = some out := by
    rw [Doc.extractSegment, hws]; exact ⟨_, rfl⟩
  obtain ⟨out, hout⟩ := hex
  have hx : ∃ q', extract src discard q st.lastEnd (st.lastEnd + len) = (some out, q') ∧
      (q' = q ∨ ∃ d, d ∈ q.docs ∧ d.cbegin < st.lastEnd + len ∧ Seq.discardBefore q d = some q') := by
    unfold extract
    rw [hout]
    simp only
    cases discard with
    | false => exact ⟨q, rfl, .inl rfl⟩
    | true =>
      simp only [if_true]
      cases hlk : (Seq.lookupRange q.timeline (some st.lastEnd) (some (st.lastEnd + len))).getLast? with
      | none => exact ⟨q, rfl, .inl rfl⟩
      | some d =>
        obtain ⟨s', hs'⟩ := Seq.drop_succeeds (d := d) htidy.core htidy.fin
        have := lookup_last hr (by omega) hlk
        simp only [hs']
        exact ⟨s', rfl, .inr ⟨d, this.1, this.2, hs'⟩⟩
  obtain ⟨q', hq', hcase⟩ := hx
  have hst : reseq (extract src discard) len st .tick =
      ({ cons := { st.cons with seq := some (some q') }, lastEnd := st.lastEnd + len, counter := st.counter + 1 },
        some ⟨st.counter, st.lastEnd, st.lastEnd + len, out⟩) := by
    simp only [reseq, hq, hq']
  rw [hst]
  refine ⟨⟨fun hc => absurd hc hds, fun _ => ?_⟩, by simp [hds]⟩
  rcases hcase with rfl | ⟨d, hd, hdlt, hdrop⟩
  · refine ⟨q', agid, log, hf, rfl, hr, hlog, htidy, hcfg, hag, hsub, ?_⟩
    intro x hx
    exact (hcov x hx).imp id (fun ⟨y, hy, h1, h2⟩ => ⟨y, hy, h1, by simp only; omega⟩)
  · obtain ⟨_, hdocs, _, _, hc', ha', _⟩ := Seq.drop_core htidy.core hd hdrop
    have hmem : ∀ x, x ∈ q'.docs ↔ x ∈ q.docs ∧ d.num ≤ x.num := by
      intro x; rw [hdocs]; simp
    refine ⟨q', agid, log, hf, rfl, .drop hr hd hdrop, hlog, Seq.tidy_drop htidy hd hdrop, by rw [hc', hcfg], by rw [ha']; exact hag,
      fun x hx => hsub x ((hmem x).1 hx).1, ?_⟩
    intro x hx
    simp only [hmem]
    have hdm : d ∈ q.docs ∧ d.num ≤ d.num := ⟨hd, Nat.le_refl _⟩
    rcases hcov x hx with hm | ⟨y, hy, h1, h2⟩
    · by_cases hle : d.num ≤ x.num
      · exact .inl ⟨hm, hle⟩
      · exact .inr ⟨d, hdm, by omega, by omega⟩
    · by_cases hle : d.num ≤ y.num
      · exact .inr ⟨y, ⟨hy, hle⟩, h1, by omega⟩
      · exact .inr ⟨d, hdm, by omega, by omega⟩

/-- Running the events one after the other. -/
theorem runR_append {β : Type} (ex : Seq.State → Int → Int → Option β × Seq.State) (len : Int) : ∀ (a b : List REv) (s : RState),
    (runR ex len s (a ++ b)).1 = (runR ex len (runR ex len s a).1 b).1 ∧
    (runR ex len s (a ++ b)).2 = (runR ex len s a).2 ++ (runR ex len (runR ex len s a).1 b).2
  | [], _, _ => ⟨rfl, rfl⟩
  | e :: es, b, s => by
    obtain ⟨h1, h2⟩ := runR_append ex len es b (reseq ex len s e).1
    exact ⟨h1, by simp only [List.cons_append, runR, h2, List.append_assoc]⟩

theorem deliveries_append (a b : List REv) : deliveries (a ++ b) = deliveries a ++ deliveries b := List.filterMap_append

/-- The state after any course of events in sequence order, and that it is one a resequencer can reach. -/
theorem fed_run {src : Seq.Doc → Doc.Source} {discard : Bool} {cfg : Seq.Cfg} {g : Option String} {start len : Int} (hl : 0 ≤ len)
    (evs : List REv) (hin : InSeq cfg g (deliveries evs)) :
    Fed cfg g (runR (extract src discard) len { lastEnd := start } evs).1 (deliveries evs) ∧
    RReach (extract src discard) start len (runR (extract src discard) len { lastEnd := start } evs).1 (deliveries evs).reverse := by
  induction evs using List.reverseRecOn with
  | nil => exact ⟨⟨fun _ => ⟨rfl, rfl⟩, fun h => absurd rfl h⟩, .init⟩
  | append_singleton es e ih =>
    rw [deliveries_append] at hin ⊢
    obtain ⟨h1, h2⟩ := ih hin.prefix
    rw [(runR_append _ _ es [e] _).1]
    cases e with
    | tick =>
      have hd : deliveries [REv.tick] = [] := rfl
      rw [hd, List.append_nil]
      exact ⟨(fed_tick hl h1).1, .tick h2⟩
    | deliver now od =>
      cases od with
      | none =>
        have hd : deliveries [REv.deliver now none] = [] := rfl
        rw [hd, List.append_nil]
        have hs : (reseq (extract src discard) len (runR (extract src discard) len { lastEnd := start } es).1 (.deliver now none)).1 =
            (runR (extract src discard) len { lastEnd := start } es).1 := rfl
        refine ⟨?_, .msg now h2⟩
        simp only [runR]
        rw [hs]
        exact h1
      | some d =>
        have hd : deliveries [REv.deliver now (some d)] = [arrived now d] := rfl
        rw [hd] at hin ⊢
        obtain ⟨ho, h3⟩ := fed_deliver (src := src) (discard := discard) (len := len) h1 now d hin
        refine ⟨h3, ?_⟩
        rw [List.reverse_append]
        refine .deliver now d h2 (hin.timed _ (by simp)) ?_ ?_
        · intro hm
          have := (List.pairwise_append.1 hin.newer).2.2 _ (List.mem_reverse.1 hm) (arrived now d) (by simp)
          omega
        · intro o' ho'
          rw [ho] at ho'
          injection ho' with ho'
          rw [← ho']; rfl

end Verif.Node
