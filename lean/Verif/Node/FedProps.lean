import Verif.Node.Fed

/-! C99: a resequencer that gets its documents in sequence order. -/
namespace Verif.Node

open Verif

/-- Specification: the event is the delivery of a document. -/
def REv.isDoc : REv → Bool
  | .deliver _ (some _) => true
  | _ => false

/-- Specification: the event is a call of the timer. -/
def REv.isTick : REv → Bool
  | .tick => true
  | _ => false

/-- Specification: how often the timer ran after the first document came. -/
def ticksAfterFirst (evs : List REv) : Nat := (evs.dropWhile (fun e => !e.isDoc)).countP REv.isTick

theorem take_inSeq {cfg : Seq.Cfg} {g : Option String} {evs : List REv} (h : InSeq cfg g (deliveries evs)) (k : Nat) :
    InSeq cfg g (deliveries (evs.take k)) := by
  rw [← List.take_append_drop k evs, deliveries_append] at h
  exact h.prefix

/-- **C99**  When the documents of one sequence come each newer than those before, with messages and calls of the timer at any moments
in between, every document is taken. -/
theorem C99_every_document {src : Seq.Doc → Doc.Source} {discard : Bool} {cfg : Seq.Cfg} {g : Option String} {start len : Int}
    (hl : 0 ≤ len) (evs : List REv) (hin : InSeq cfg g (deliveries evs)) (k : Nat) (now : Int) (d : CDoc)
    (hk : evs[k]? = some (.deliver now (some d))) :
    (consume now (runR (extract src discard) len { lastEnd := start } (evs.take k)).1.cons (some d)).2 = .added .inserted := by
  have hk' : k < evs.length := by
    apply Classical.byContradiction
    intro h
    rw [List.getElem?_eq_none (by omega)] at hk
    cases hk
  have hs : evs.take (k + 1) = evs.take k ++ [.deliver now (some d)] := by
    rw [List.take_add_one, hk]; rfl
  have h1 := take_inSeq hin (k + 1)
  rw [hs, deliveries_append] at h1
  exact (fed_deliver (src := src) (discard := discard) (len := len) (fed_run (src := src) (discard := discard) (start := start) hl _ (take_inSeq hin k)).1 now d h1).1

/-- **C99**  Under the same conditions every call of the timer produces a segment as soon as a document has come: extracting and
discarding never fail. -/
theorem C99_every_tick {src : Seq.Doc → Doc.Source} {discard : Bool} {cfg : Seq.Cfg} {g : Option String} {start len : Int}
    (hl : 0 ≤ len) (evs : List REv) (hin : InSeq cfg g (deliveries evs)) (k : Nat) :
    (reseq (extract src discard) len (runR (extract src discard) len { lastEnd := start } (evs.take k)).1 .tick).2.isSome = true ↔
      deliveries (evs.take k) ≠ [] :=
  (fed_tick hl (fed_run hl _ (take_inSeq hin k)).1).2

theorem fed_count {src : Seq.Doc → Doc.Source} {discard : Bool} {cfg : Seq.Cfg} {g : Option String} {len : Int} (hl : 0 ≤ len) :
    ∀ (evs : List REv) (st : RState) (ds : List Seq.Doc), Fed cfg g st ds → InSeq cfg g (ds ++ deliveries evs) →
      (runR (extract src discard) len st evs).2.length = if ds = [] then ticksAfterFirst evs else evs.countP REv.isTick
  | [], st, ds, _, _ => by simp [runR, ticksAfterFirst]
  | .tick :: es, st, ds, h, hin => by
    obtain ⟨h1, h2⟩ := fed_tick (src := src) (discard := discard) hl h
    have ih := fed_count (src := src) (discard := discard) hl es _ ds h1 hin
    simp only [runR, List.length_append, ih, Option.length_toList]
    by_cases hds : ds = []
    · have : (reseq (extract src discard) len st .tick).2.isSome = false := by
        rw [Bool.eq_false_iff]; intro hc; exact (h2.1 hc) hds
      simp [hds, this, ticksAfterFirst, REv.isDoc]
    · rw [if_neg hds, if_neg hds, List.countP_cons, h2.2 hds]
      simp [REv.isTick]; omega
  | .deliver now none :: es, st, ds, h, hin => by
    have ih := fed_count (src := src) (discard := discard) hl es st ds h hin
    have hs : reseq (extract src discard) len st (.deliver now none) = (st, none) := rfl
    simp only [runR, hs, Option.toList_none, List.nil_append, ih]
    simp [ticksAfterFirst, REv.isDoc, REv.isTick]
  | .deliver now (some d) :: es, st, ds, h, hin => by
    have hd : deliveries (.deliver now (some d) :: es) = arrived now d :: deliveries es := rfl
    rw [hd, List.append_cons] at hin
    have ih := fed_count (src := src) (discard := discard) hl es _ _
      (fed_deliver (src := src) (discard := discard) (len := len) h now d hin.prefix).2 hin
    rw [if_neg (by simp)] at ih
    have hs : (reseq (extract src discard) len st (.deliver now (some d))).2 = none := rfl
    simp only [runR, hs, Option.toList_none, List.nil_append, ih]
    simp [ticksAfterFirst, REv.isDoc, REv.isTick]

/-- **C99**  Under the same conditions there are as many segments as calls of the timer after the first document. -/
theorem C99_segments {src : Seq.Doc → Doc.Source} {discard : Bool} {cfg : Seq.Cfg} {g : Option String} {start len : Int}
    (hl : 0 ≤ len) (evs : List REv) (hin : InSeq cfg g (deliveries evs)) :
    (runR (extract src discard) len { lastEnd := start } evs).2.length = ticksAfterFirst evs := by
  have := fed_count (src := src) (discard := discard) (cfg := cfg) (g := g) hl evs { lastEnd := start } []
    ⟨fun _ => ⟨rfl, rfl⟩, fun h => absurd rfl h⟩ hin
  simpa using this

/-- **C99**  Under the same conditions, which document is active at an instant of the next window or later does not depend on when
the timer ran or what was discarded: it is the newest delivered document that has begun, if its own end has not come. -/
theorem C99_active {src : Seq.Doc → Doc.Source} {discard : Bool} {cfg : Seq.Cfg} {g : Option String} {start len : Int}
    (hl : 0 ≤ len) (evs : List REv) (hin : InSeq cfg g (deliveries evs)) (st : RState)
    (hst : st = (runR (extract src discard) len { lastEnd := start } evs).1) (q : Seq.State) (hq : st.cons.seq = some (some q)) (t : Int)
    (ht : st.lastEnd ≤ t) (a : Seq.Doc) :
    Seq.ActiveAt q a t ↔ Seq.Newest (deliveries evs) t a ∧ Seq.EndsAfter a t := by
  subst hst
  exact (fed_run hl evs hin).1.active hq ht a

/-- Two documents, the timer running before, between and after them, with discarding. -/
def exFeed : List REv :=
  [.tick, .deliver 0 (some ⟨Seq.mk 1 1 1000000 (some 9000000), some 0, fun _ => (1000000, some 9000000)⟩), .tick,
   .deliver 5 none, .deliver 6 (some ⟨Seq.mk 2 2 5000000 none, none, fun _ => (5000000, none)⟩), .tick, .tick]

example : InSeq Seq.exCfg none (deliveries exFeed) ∧ ticksAfterFirst exFeed = 3 := by
  have hd : deliveries exFeed = [Seq.mk 1 1 1000000 (some 9000000), Seq.mk 2 2 5000000 none] := by decide
  refine ⟨?_, by decide⟩
  rw [hd]
  refine ⟨by decide, ?_, by decide, by decide⟩
  intro d hd
  simp only [List.mem_cons, List.not_mem_nil, or_false] at hd
  rcases hd with rfl | rfl <;> exact ⟨by simp [Seq.mk], by intro e he; simp [Seq.mk] at he ⊢; try omega⟩

end Verif.Node
