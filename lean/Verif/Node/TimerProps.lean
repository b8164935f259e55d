import Verif.Node.Timer
import Verif.Node.FedProps
import Verif.Node.ProducerProps

/-! C101: what the timers of resequencer and producer do when something raises. -/
namespace Verif.Node

open Verif

/-! ### The resequencer -/

/-- Specification: the timer's call at this state raises: no segment could be made, or what it was handed to raised. -/
def CallRaises {β τ : Type} (ex : Seq.State → Int → Int → Option β × Seq.State) (down : τ → RSeg β → τ × Bool) (len : Int) (st : RState) (dn : τ) :
    Prop :=
  (∃ q, st.cons.seq = some q ∧ (reseq ex len st .tick).2 = none) ∨
  ∃ g, (reseq ex len st .tick).2 = some g ∧ (down dn g).2 = false

/-- Specification: what the segments were handed to, after it got them one after the other. -/
def handed {α τ : Type} (down : τ → α → τ × Bool) (dn : τ) (segs : List α) : τ := segs.foldl (fun x g => (down x g).1) dn

/-- Specification: at the `k`-th event the timer's call raises, all having gone well before. -/
def RaisesAt {β τ : Type} (ex : Seq.State → Int → Int → Option β × Seq.State) (down : τ → RSeg β → τ × Bool) (len : Int) (st : RState) (dn : τ)
    (evs : List REv) (k : Nat) : Prop :=
  evs[k]? = some .tick ∧
    CallRaises ex down len (runR ex len st (evs.take k)).1 (handed down dn (runR ex len st (evs.take k)).2)

theorem noSegment_iff {β : Type} (ex : Seq.State → Int → Int → Option β × Seq.State) (len : Int) (st : RState)
    (h : (reseq ex len st .tick).2 = none) : noSegment ex len st = true ↔ ∃ q, st.cons.seq = some q := by
  unfold reseq at h
  unfold noSegment
  cases hq : st.cons.seq with
  | none => simp
  | some q =>
    cases q with
    | none => simp
    | some q =>
      simp only [hq] at h
      cases hx : (ex q st.lastEnd (st.lastEnd + len)).1 with
      | none => simp [hx]
      | some b => rw [hx] at h; cases h

/-- A timer's call that does not raise. -/
theorem timed_ok {β τ : Type} (ex : Seq.State → Int → Int → Option β × Seq.State) (down : τ → RSeg β → τ × Bool) (len : Int) (st : RState) (dn : τ)
    (h : ¬ CallRaises ex down len st dn) :
    timedR ex down len ⟨st, dn, true⟩ .tick =
      (⟨(reseq ex len st .tick).1, handed down dn (reseq ex len st .tick).2.toList, true⟩, (reseq ex len st .tick).2) := by
  unfold timedR
  simp only [if_true]
  cases hr : reseq ex len st .tick with
  | mk n o =>
    cases o with
    | none =>
      have h1 : (reseq ex len st .tick).2 = none := by rw [hr]
      have h2 : noSegment ex len st = false := by
        cases hn : noSegment ex len st with
        | false => rfl
        | true =>
          obtain ⟨q, hq⟩ := (noSegment_iff ex len st h1).1 hn
          exact absurd (.inl ⟨q, hq, h1⟩) h
      simp [h2, handed]
    | some g =>
      have h2 : (down dn g).2 = true := by
        cases hn : (down dn g).2 with
        | true => rfl
        | false => exact absurd (.inr ⟨g, by rw [hr], hn⟩) h
      simp [h2, handed]

/-- A timer's call that raises: what was made before it raised is still handed on, and the timer stops. -/
theorem timed_raises {β τ : Type} (ex : Seq.State → Int → Int → Option β × Seq.State) (down : τ → RSeg β → τ × Bool) (len : Int) (st : RState)
    (dn : τ) (h : CallRaises ex down len st dn) :
    (timedR ex down len ⟨st, dn, true⟩ .tick).2 = (reseq ex len st .tick).2 ∧ (timedR ex down len ⟨st, dn, true⟩ .tick).1.on = false ∧
    (timedR ex down len ⟨st, dn, true⟩ .tick).1.down = handed down dn (reseq ex len st .tick).2.toList := by
  unfold timedR
  simp only [if_true]
  cases hr : reseq ex len st .tick with
  | mk n o =>
    cases o with
    | none =>
      have h1 : (reseq ex len st .tick).2 = none := by rw [hr]
      have h2 : noSegment ex len st = true := by
        rcases h with ⟨q, hq, _⟩ | ⟨g, hg, _⟩
        · exact (noSegment_iff ex len st h1).2 ⟨q, hq⟩
        · rw [hr] at hg; cases hg
      simp [h2, handed]
    | some g =>
      have h2 : (down dn g).2 = false := by
        rcases h with ⟨q, _, hq⟩ | ⟨g', hg, hd⟩
        · rw [hr] at hq; cases hq
        · rw [hr] at hg; injection hg with hg; subst hg; exact hd
      simp [h2, handed]

/-- **C101**  Once the timer of a resequencer has stopped, no segment is made any more, whatever is delivered. -/
theorem C101_stopped {β τ : Type} (ex : Seq.State → Int → Int → Option β × Seq.State) (down : τ → RSeg β → τ × Bool) (len : Int) :
    ∀ (evs : List REv) (s : Timed RState τ), s.on = false →
      (runTR ex down len s evs).2 = [] ∧ (runTR ex down len s evs).1.on = false ∧ (runTR ex down len s evs).1.down = s.down
  | [], _, h => ⟨rfl, h, rfl⟩
  | .tick :: es, s, h => by
    have ht : timedR ex down len s .tick = (s, none) := by unfold timedR; simp [h]
    simp only [runTR, ht]
    exact C101_stopped ex down len es s h
  | .deliver now d :: es, s, h => by
    simp only [runTR, timedR]
    exact C101_stopped ex down len es { s with node := (reseq ex len s.node (.deliver now d)).1 } h

theorem handed_append {α τ : Type} (down : τ → α → τ × Bool) (dn : τ) (a b : List α) :
    handed down dn (a ++ b) = handed down (handed down dn a) b := List.foldl_append ..

theorem raisesAt_succ {β τ : Type} {ex : Seq.State → Int → Int → Option β × Seq.State} {down : τ → RSeg β → τ × Bool} {len : Int} {st : RState}
    {dn : τ} {e : REv} {es : List REv} {k : Nat} :
    RaisesAt ex down len st dn (e :: es) (k + 1) ↔
      RaisesAt ex down len (reseq ex len st e).1 (handed down dn (reseq ex len st e).2.toList) es k := by
  unfold RaisesAt
  simp only [List.getElem?_cons_succ, List.take_succ_cons, runR, handed_append]

/-- **C101**  As long as no call of the timer raises, a resequencer with its timer does what it does when the calls are made by hand. -/
theorem C101_goes_on {β τ : Type} (ex : Seq.State → Int → Int → Option β × Seq.State) (down : τ → RSeg β → τ × Bool) (len : Int) :
    ∀ (evs : List REv) (st : RState) (dn : τ), (∀ k, ¬ RaisesAt ex down len st dn evs k) →
      runTR ex down len ⟨st, dn, true⟩ evs =
        (⟨(runR ex len st evs).1, handed down dn (runR ex len st evs).2, true⟩, (runR ex len st evs).2)
  | [], _, _, _ => rfl
  | e :: es, st, dn, h => by
    have hstep : timedR ex down len ⟨st, dn, true⟩ e =
        (⟨(reseq ex len st e).1, handed down dn (reseq ex len st e).2.toList, true⟩, (reseq ex len st e).2) := by
      cases e with
      | tick => exact timed_ok ex down len st dn (fun hc => h 0 ⟨rfl, hc⟩)
      | deliver now d => rfl
    simp only [runTR, hstep, runR]
    rw [C101_goes_on ex down len es _ _ (fun k hk => h (k + 1) (raisesAt_succ.2 hk)), handed_append]

/-- **C101**  The first call of the timer that raises is the last: the segments made up to and in that call are handed on and no others,
whatever happens afterwards. -/
theorem C101_first_failure {β τ : Type} (ex : Seq.State → Int → Int → Option β × Seq.State) (down : τ → RSeg β → τ × Bool) (len : Int) :
    ∀ (evs : List REv) (st : RState) (dn : τ) (k : Nat), RaisesAt ex down len st dn evs k → (∀ j, j < k → ¬ RaisesAt ex down len st dn evs j) →
      (runTR ex down len ⟨st, dn, true⟩ evs).2 = (runR ex len st (evs.take (k + 1))).2 ∧
      (runTR ex down len ⟨st, dn, true⟩ evs).1.on = false ∧
      (runTR ex down len ⟨st, dn, true⟩ evs).1.down = handed down dn (runR ex len st (evs.take (k + 1))).2
  | [], _, _, k, hk, _ => by simp [RaisesAt] at hk
  | e :: es, st, dn, 0, hk, _ => by
    obtain ⟨he, hc⟩ := hk
    injection he with he
    subst he
    obtain ⟨h1, h2, h3⟩ := timed_raises ex down len st dn hc
    obtain ⟨g1, g2, g3⟩ := C101_stopped ex down len es _ h2
    simp only [runTR, g1, h1, g2, g3, h3, List.take_succ_cons, List.take_zero, runR, List.append_nil, and_self]
  | e :: es, st, dn, k + 1, hk, hj => by
    have hstep : timedR ex down len ⟨st, dn, true⟩ e =
        (⟨(reseq ex len st e).1, handed down dn (reseq ex len st e).2.toList, true⟩, (reseq ex len st e).2) := by
      cases e with
      | tick => exact timed_ok ex down len st dn (fun hc => hj 0 (by omega) ⟨rfl, hc⟩)
      | deliver now d => rfl
    obtain ⟨g1, g2, g3⟩ := C101_first_failure ex down len es _ _ k (raisesAt_succ.1 hk) (fun j hjk hr => hj (j + 1) (by omega) (raisesAt_succ.2 hr))
    simp only [runTR, hstep, g1, g2, g3, List.take_succ_cons, runR, handed_append, and_self]

/-- **C101**  When the documents of one sequence come each newer than those before, with messages and calls of the timer at any moments in
between, and what the segments are handed to never raises, the timer goes on for ever: there is a segment for each call after the
first document. -/
theorem C101_in_order {τ : Type} {src : Seq.Doc → Doc.Source} {discard : Bool} {cfg : Seq.Cfg} {g : Option String} {start len : Int} (hl : 0 ≤ len)
    (evs : List REv) (hin : InSeq cfg g (deliveries evs)) (down : τ → RSeg (Option Doc.SDoc) → τ × Bool) (dn : τ)
    (hdown : ∀ k seg, evs[k]? = some .tick →
      (reseq (extract src discard) len (runR (extract src discard) len { lastEnd := start } (evs.take k)).1 .tick).2 = some seg →
      ∀ x, (down x seg).2 = true) :
    (runTR (extract src discard) down len ⟨{ lastEnd := start }, dn, true⟩ evs).1.on = true ∧
    (runTR (extract src discard) down len ⟨{ lastEnd := start }, dn, true⟩ evs).2 = (runR (extract src discard) len { lastEnd := start } evs).2 ∧
    (runTR (extract src discard) down len ⟨{ lastEnd := start }, dn, true⟩ evs).2.length = ticksAfterFirst evs := by
  have h := C101_goes_on (extract src discard) down len evs { lastEnd := start } dn (by
    intro k ⟨hk, hr⟩
    have hf := (fed_run (src := src) (discard := discard) (start := start) hl _ (take_inSeq hin k)).1
    rcases hr with ⟨q, hq, hn⟩ | ⟨seg, hseg, hd⟩
    · have := (C99_every_tick (src := src) (discard := discard) (start := start) hl evs hin k).2 (fun he => by
        rw [(hf.idle he).2] at hq; cases hq)
      rw [hn] at this
      cases this
    · rw [hdown k seg hk hseg] at hd
      cases hd)
  rw [h]
  exact ⟨rfl, rfl, C99_segments hl evs hin⟩

/-- A document of which nothing is left in any window, for all of the sequence. -/
def exBare (_ : Seq.Doc) : Doc.Source :=
  { root := .elem { kind := .body } [], avail := 0, base := .media, rd := Time.exactReader, ref := fun _ n => some n
    styles := fun _ => none, regions := fun _ => none }

/-- The events of C99's example: the timer is still running after them, and the three segments have been counted. -/
example : (runTR (extract exBare true) (fun n _ => (n + 1, true)) 3000000 ⟨{ lastEnd := 1000000 }, 0, true⟩ exFeed).1.on = true ∧
    (runTR (extract exBare true) (fun n _ => (n + 1, true)) 3000000 ⟨{ lastEnd := 1000000 }, 0, true⟩ exFeed).1.down = 3 := by decide +kernel

/-- What takes the segments raises at the second: two are handed on, the third is never made. -/
example : (runTR (extract exBare true) (fun n _ => (n + 1, n = 0)) 3000000 ⟨{ lastEnd := 1000000 }, 0, true⟩ exFeed).1.on = false ∧
    (runTR (extract exBare true) (fun n _ => (n + 1, n = 0)) 3000000 ⟨{ lastEnd := 1000000 }, 0, true⟩ exFeed).1.down = 2 := by decide +kernel

/-! ### The producer -/

/-- **C101**  A producer with its timer sends the documents it makes up to the first request it cannot answer, and never again after
that. -/
theorem C101_producer_until {τ : Type} (rd : Time.Reader) (down : τ → Produced → τ × Bool) (hd : ∀ x p, (down x p).2 = true) :
    ∀ (ts : List Int) (s : PState) (dn : τ),
      (runTP rd down ⟨s, dn, true⟩ ts).2 = ((runP rd s ts).2.takeWhile Option.isSome).filterMap id ∧
      ((runTP rd down ⟨s, dn, true⟩ ts).1.on = true ↔ ∀ r ∈ (runP rd s ts).2, r ≠ none)
  | [], s, dn => by simp [runTP, runP]
  | t :: ts, s, dn => by
    simp only [runTP, timedP, runP, if_true]
    cases hp : produce rd t s with
    | mk n o =>
      cases o with
      | none =>
        have hs : ∀ (l : List Int) (x : Timed PState τ), x.on = false → (runTP rd down x l).2 = [] ∧ (runTP rd down x l).1.on = false := by
          intro l
          induction l with
          | nil => intro x hx; exact ⟨rfl, hx⟩
          | cons a l ih =>
            intro x hx
            have : timedP rd down a x = (x, none) := by unfold timedP; simp [hx]
            simp only [runTP, this]
            exact ih x hx
        obtain ⟨h1, h2⟩ := hs ts ⟨n, dn, false⟩ rfl
        simp [h1, h2]
      | some p =>
        obtain ⟨h1, h2⟩ := C101_producer_until rd down hd ts n (down dn p).1
        have := hd dn p
        simp only [this]
        simp [h1, h2]

theorem producer_stopped {τ : Type} (rd : Time.Reader) (down : τ → Produced → τ × Bool) : ∀ (l : List Int) (x : Timed PState τ), x.on = false →
    runTP rd down x l = (x, [])
  | [], _, _ => rfl
  | a :: l, x, hx => by
    have : timedP rd down a x = (x, none) := by unfold timedP; simp [hx]
    simp only [runTP, this, producer_stopped rd down l x hx]
    rfl

/-- **C101**  When what takes the documents of a producer raises for the first time, at the document of the `k`-th call, the timer stops:
this document and those before it have been handed on and no other ever is. -/
theorem C101_producer_receiver_raises {τ : Type} (rd : Time.Reader) (down : τ → Produced → τ × Bool) :
    ∀ (ts : List Int) (s : PState) (dn : τ) (docs : List Produced) (p : Produced) (k : Nat), docs.length = k →
      (runP rd s (ts.take (k + 1))).2 = (docs ++ [p]).map some →
      (∀ pre q post, docs = pre ++ q :: post → (down (handed down dn pre) q).2 = true) → (down (handed down dn docs) p).2 = false →
      (runTP rd down ⟨s, dn, true⟩ ts).2 = docs ++ [p] ∧ (runTP rd down ⟨s, dn, true⟩ ts).1.on = false ∧
      (runTP rd down ⟨s, dn, true⟩ ts).1.down = handed down dn (docs ++ [p])
  | [], _, _, docs, p, k, _, hr, _, _ => by simp [runP] at hr
  | t :: ts, s, dn, docs, p, k, hk, hr, hgood, hbad => by
    simp only [List.take_succ_cons, runP] at hr
    simp only [runTP, timedP, if_true]
    cases docs with
    | nil =>
      simp only [List.nil_append, List.map_cons, List.map_nil, List.cons.injEq] at hr
      cases hp : produce rd t s with
      | mk n o =>
        rw [hp] at hr
        simp only at hr
        obtain ⟨rfl, _⟩ := hr
        have hb : (down dn p).2 = false := hbad
        simp only [hb]
        rw [producer_stopped rd down ts _ rfl]
        exact ⟨rfl, rfl, rfl⟩
    | cons q qs =>
      simp only [List.cons_append, List.map_cons, List.cons.injEq] at hr
      cases hp : produce rd t s with
      | mk n o =>
        rw [hp] at hr
        simp only at hr
        obtain ⟨rfl, hr⟩ := hr
        have hg : (down dn q).2 = true := hgood [] q qs rfl
        simp only [hg]
        have hk' : k = qs.length + 1 := by rw [← hk]; rfl
        rw [hk'] at hr
        obtain ⟨h1, h2, h3⟩ := C101_producer_receiver_raises rd down ts n (down dn q).1 qs p qs.length rfl hr
          (fun pre x post h => hgood (q :: pre) x post (by rw [h]; rfl)) hbad
        exact ⟨by rw [h1]; rfl, h2, h3⟩

/-- What takes the documents raises at the second: two are handed on although five were asked for. -/
example : ((runTP Time.exactReader (fun (n : Nat) _ => (n + 1, n = 0)) ⟨⟨0, some (rounds 5 [[['a']], [['b'], ['c']]])⟩, 0, true⟩
      [0, 2000000, 4000000, 6000000, 8000000]).2.map (·.num)) = [1, 2] ∧
    ((runP Time.exactReader ⟨0, some (rounds 5 [[['a']], [['b'], ['c']]])⟩ ([0, 2000000, 4000000, 6000000, 8000000].take 2)).2.map
      (fun o => o.map (·.num))) = [some 1, some 2] := by decide +kernel

theorem length_rounds {α : Type} (n : Nat) (l : List α) : (rounds n l).length = n * l.length := by
  simp [rounds]

theorem getElem?_rounds {α : Type} (l : List α) : ∀ (n i : Nat), i < n * l.length → (rounds n l)[i]? = l[i % l.length]?
  | 0, i, h => by omega
  | n + 1, i, h => by
    have : rounds (n + 1) l = l ++ rounds n l := by simp [rounds, List.replicate_succ]
    rw [this]
    by_cases hi : i < l.length
    · rw [List.getElem?_append_left hi, Nat.mod_eq_of_lt hi]
    · rw [List.getElem?_append_right (by omega), getElem?_rounds l n (i - l.length) (by rw [Nat.add_mul] at h; omega),
        ← Nat.mod_eq_sub_mod (by omega)]

/-- **C101**  A producer that is given blocks of text over and over again (as a configured producer is) goes on for ever: the `i`-th call of
the timer sends document `i` with block `i`, counted round and round.  For blocks that are not empty, what takes the documents never raising,
and times below 100 hours less a second. -/
theorem C101_producer_cycle_partial {τ : Type} (rd : Time.Reader) (hrd : rd.Accurate) (down : τ → Produced → τ × Bool)
    (hd : ∀ x p, (down x p).2 = true) (dn : τ) (ts : List Int) (ht : ∀ t ∈ ts, 0 ≤ t ∧ t < 359999000000)
    (toks : List (List (List Char))) (h0 : toks ≠ []) (hb : ∀ b ∈ toks, b ≠ []) (n : Nat) (hn : ts.length ≤ n) (last : Nat) :
    (runTP rd down ⟨⟨last, some (rounds n toks)⟩, dn, true⟩ ts).1.on = true ∧
    (runTP rd down ⟨⟨last, some (rounds n toks)⟩, dn, true⟩ ts).2.length = ts.length ∧
    ∀ (i : Nat) now p, ts[i]? = some now → (runTP rd down ⟨⟨last, some (rounds n toks)⟩, dn, true⟩ ts).2[i]? = some p →
      ∃ lines, toks[i % toks.length]? = some lines ∧ Sends (last + 1 + i) lines now (some p) := by
  have hlen : 0 < toks.length := List.length_pos_iff.2 h0
  have hmul : ts.length ≤ n * toks.length := Nat.le_trans hn (Nat.le_mul_of_pos_right _ hlen)
  obtain ⟨h1, h2⟩ := C52_blocks rd hrd ts last (rounds n toks) ht (by
    intro b hb'
    simp only [rounds, List.mem_flatten, List.mem_replicate] at hb'
    obtain ⟨l, ⟨_, rfl⟩, h⟩ := hb'
    exact hb b h)
  have hall : ∀ (i : Nat) r, (runP rd ⟨last, some (rounds n toks)⟩ ts).2[i]? = some r →
      ∃ now lines, ts[i]? = some now ∧ toks[i % toks.length]? = some lines ∧ Sends (last + 1 + i) lines now r := by
    intro i r hr
    have hi : i < ts.length := by
      rw [← h1]; exact (List.getElem?_eq_some_iff.1 hr).1
    have hx := h2 i r ts[i] hr (List.getElem?_eq_getElem hi)
    rw [getElem?_rounds toks n i (by omega)] at hx
    have hm : i % toks.length < toks.length := Nat.mod_lt _ hlen
    rw [List.getElem?_eq_getElem hm] at hx
    exact ⟨_, _, List.getElem?_eq_getElem hi, List.getElem?_eq_getElem hm, hx⟩
  have hsome : ∀ r ∈ (runP rd ⟨last, some (rounds n toks)⟩ ts).2, r ≠ none := by
    intro r hr
    obtain ⟨i, hi⟩ := List.getElem?_of_mem hr
    obtain ⟨_, _, _, _, p, hp, _⟩ := hall i r hi
    rw [hp]; simp
  obtain ⟨g1, g2⟩ := C101_producer_until rd down hd ts ⟨last, some (rounds n toks)⟩ dn
  have htw : (runP rd ⟨last, some (rounds n toks)⟩ ts).2.takeWhile Option.isSome = (runP rd ⟨last, some (rounds n toks)⟩ ts).2 := by
    clear g1 g2 h1 h2 hall
    generalize (runP rd ⟨last, some (rounds n toks)⟩ ts).2 = l at *
    induction l with
    | nil => rfl
    | cons a l ih =>
      rw [List.takeWhile_cons_of_pos (Option.isSome_iff_ne_none.2 (hsome a List.mem_cons_self)),
        ih (fun r hr => hsome r (List.mem_cons_of_mem _ hr))]
  rw [htw] at g1
  have hmap : ∀ (l : List (Option Produced)), (∀ r ∈ l, r ≠ none) → (l.filterMap id).map some = l := by
    intro l hl
    induction l with
    | nil => rfl
    | cons a l ih =>
      cases a with
      | none => exact absurd rfl (hl none List.mem_cons_self)
      | some a =>
        simp only [List.filterMap_cons, id, List.map_cons]
        rw [ih (fun r hr => hl r (List.mem_cons_of_mem _ hr))]
  have hmap := hmap _ hsome
  refine ⟨g2.2 hsome, ?_, ?_⟩
  · rw [g1, ← h1, ← congrArg List.length hmap, List.length_map]
  · intro i now p hnow hp
    rw [g1] at hp
    have : (runP rd ⟨last, some (rounds n toks)⟩ ts).2[i]? = some (some p) := by
      rw [← hmap, List.getElem?_map, hp]; rfl
    obtain ⟨now', lines, h3, h4, h5⟩ := hall i _ this
    rw [hnow] at h3
    injection h3 with h3
    subst h3
    exact ⟨lines, h4, h5⟩

/-- Two blocks, five calls: one, two, one, two, one. -/
example : ((runTP Time.exactReader (fun (n : Nat) _ => (n + 1, true)) ⟨⟨0, some (rounds 5 [[['a']], [['b'], ['c']]])⟩, 0, true⟩
    [0, 2000000, 4000000, 6000000, 8000000]).2.map (fun p => (p.num, match p.body with
      | .elem _ [.elem _ [.elem _ c]] => reading c
      | _ => []))) =
    [(1, [.text ['a']]), (2, [.text ['b'], .br, .text ['c']]), (3, [.text ['a']]), (4, [.text ['b'], .br, .text ['c']]),
      (5, [.text ['a']])] := by decide +kernel

/-- Without rounds the producer stops for good when the blocks are used up. -/
theorem C101_producer_ends {τ : Type} (rd : Time.Reader) (down : τ → Produced → τ × Bool) (hd : ∀ x p, (down x p).2 = true) (dn : τ)
    (last : Nat) (t : Int) (ts : List Int) :
    (runTP rd down ⟨⟨last, some []⟩, dn, true⟩ (t :: ts)).2 = [] ∧ (runTP rd down ⟨⟨last, some []⟩, dn, true⟩ (t :: ts)).1.on = false := by
  obtain ⟨h1, h2⟩ := C101_producer_until rd down hd (t :: ts) ⟨last, some []⟩ dn
  have hp : produce rd t ⟨last, some []⟩ = (⟨last, some []⟩, none) := rfl
  simp only [runP, hp] at h1 h2
  refine ⟨by simpa using h1, ?_⟩
  cases hon : (runTP rd down ⟨⟨last, some []⟩, dn, true⟩ (t :: ts)).1.on with
  | false => rfl
  | true => exact absurd rfl (h2.1 hon none List.mem_cons_self)

/-- The claim that every block that is not empty is sent in its turn is false: an empty one before it stops the timer. -/
theorem C101_false_empty_block {τ : Type} (rd : Time.Reader) (down : τ → Produced → τ × Bool) (hd : ∀ x p, (down x p).2 = true) (dn : τ)
    (last : Nat) (blocks : List (List (List Char))) (ts : List Int) :
    (runTP rd down ⟨⟨last, some ([] :: blocks)⟩, dn, true⟩ ts).2 = [] := by
  cases ts with
  | nil => rfl
  | cons t ts =>
    obtain ⟨h1, _⟩ := C101_producer_until rd down hd (t :: ts) ⟨last, some ([] :: blocks)⟩ dn
    have hp : produce rd t ⟨last, some ([] :: blocks)⟩ = (⟨last + 1, some blocks⟩, none) := rfl
    simp only [runP, hp] at h1
    simpa using h1

end Verif.Node
