import Verif.Node.SimpleProps

/-! C52: what the producer's documents say and when they show it. -/
namespace Verif.Node

open Verif.Doc (Item Node Att)

/-- Specification: the line has something to show. -/
def LineShown (l : List Char) : Bool := !(l.all Doc.isWs)

/-- Specification: what a document made of these lines has to show: each line, one after the other. -/
def linesShown (lines : List (List Char)) : List (List Item) := (lines.filter LineShown).map (fun l => [.text l])

/-- Specification: what is read in an element's content, spans opened up. -/
def reading : List (Node Att) → List Item
  | [] => []
  | .text s :: ks => .text s :: reading ks
  | .br :: ks => .br :: reading ks
  | .elem _ kids :: ks => Doc.items kids ++ reading ks

/-- The producer's spans with the line breaks. -/
theorem interleave_some : ∀ (lines : List (List Char)), lines ≠ [] → ∃ c, interleave lines = some c ∧
    reading c = (lines.map Item.text).intersperse .br
  | [], h => absurd rfl h
  | [l], _ => ⟨_, rfl, rfl⟩
  | l :: m :: ls, _ => by
    obtain ⟨c, hc, hr⟩ := interleave_some (m :: ls) (by simp)
    refine ⟨_, by rw [interleave, hc]; rfl; simp, ?_⟩
    simp only [reading, Doc.items, hr, List.map_cons, List.singleton_append]
    rw [List.intersperse_cons_cons]

theorem span_times (sync : Int) (e : Int) (l : List Char) :
    Doc.times 0 sync (some e) (.elem { kind := .span, style := ["defaultStyle1".toList] } [.text l]) =
      .elem { att := { kind := .span, style := ["defaultStyle1".toList] }, comp := ⟨sync, some e⟩ } [.text l] := by
  simp [Doc.times, Doc.timesL, Doc.compOf, Doc.timedKids, Doc.ownEnd, Doc.preEnd, Doc.baseEnd, Doc.eff, Doc.postBegin]

theorem span_leaf (x : Doc.Lab) (hk : x.att.kind = .span) (l : List Char) :
    Doc.leaves (fun x => x.att.kind) (.elem x [.text l]) = if LineShown l then [(x, [.text l])] else [] := by
  rw [Doc.leaves, if_pos (by simp [Doc.Leaf, hk, Doc.isSpan])]
  simp [Doc.items, Doc.Visible, LineShown]

/-- The times of the content: everything begins and ends with the body. -/
theorem interleave_times (sync e : Int) : ∀ (lines : List (List Char)) (c : List (Node Att)), interleave lines = some c →
    ∃ k, Doc.timedKids (Doc.timesL 0 sync (some e) c) = List.replicate (k + 1) ⟨sync, some e⟩ ∧
      Doc.leavesL (fun x => x.att.kind) (Doc.timesL 0 sync (some e) c) =
        (lines.filter LineShown).map (fun l => (⟨{ kind := .span, style := ["defaultStyle1".toList] }, ⟨sync, some e⟩⟩, [.text l])) ∧
      c.any (Doc.isSpan Att.kind) = true
  | [], c, h => by simp [interleave] at h
  | [l], c, h => by
    simp only [interleave, Option.some.injEq] at h
    subst h
    rw [Doc.timesL, span_times]
    refine ⟨0, by simp [Doc.timesL, Doc.timedKids, Doc.badly], ?_, by simp [Doc.isSpan]⟩
    rw [Doc.timesL, Doc.leavesL, Doc.leavesL, span_leaf _ rfl, List.append_nil, List.filter_cons]
    cases hv : LineShown l <;> rfl
  | l :: m :: ls, c, h => by
    rw [interleave] at h
    · rw [Option.map_eq_some_iff] at h
      obtain ⟨r, hr, rfl⟩ := h
      obtain ⟨k, h1, h2, h3⟩ := interleave_times sync e (m :: ls) r hr
      rw [Doc.timesL, Doc.timesL, span_times]
      refine ⟨k + 1, ?_, ?_, by simp [Doc.isSpan]⟩
      · simp only [Doc.times, Doc.timedKids, h1]
        simp [Doc.badly, List.replicate_succ]
      · rw [Doc.leavesL, Doc.leavesL, span_leaf _ rfl, h2, List.filter_cons (x := l)]
        rw [show Doc.leaves (fun x : Doc.Lab => x.att.kind) (Doc.times 0 sync (some e) Node.br) = [] by
          rw [Doc.times, Doc.leaves]; simp, List.nil_append]
        cases hv : LineShown l <;> rfl
    · simp

theorem maxEnd_replicate (c : Doc.Comp) : ∀ k, Doc.maxEnd (List.replicate (k + 1) c) = c.e
  | 0 => rfl
  | k + 1 => by
    rw [List.replicate_succ, Doc.maxEnd]
    · rw [maxEnd_replicate c k]
      cases c.e <;> simp
    · simp [List.replicate_succ]

theorem minBegin_replicate (c : Doc.Comp) (k : Nat) : Doc.minBegin c (List.replicate k c) = c.b := by
  unfold Doc.minBegin
  induction k with
  | zero => rfl
  | succ k ih => simp [List.replicate_succ, ih]

theorem postBegin_replicate (c : Doc.Comp) (k : Nat) (hb : b = c.b) : Doc.postBegin b (List.replicate (k + 1) c) = c.b := by
  rw [List.replicate_succ, Doc.postBegin, minBegin_replicate]
  simp [hb]

/-- What the produced document shows. -/
theorem produced_shows (b d : Doc.TV) (hb : b.delta ≠ 0) (hd : d.delta ≠ 0) (lines : List (List Char)) (c : List (Node Att))
    (hc : interleave lines = some c) (t : Int) :
    Doc.shownAt (Doc.times 0 0 none (.elem { kind := .body, beg := some b, dur := some d }
        [.elem { kind := .div, region := some "bottomRegion".toList } [.elem { kind := .p, id := some "ID001".toList } c]])) t =
      if b.delta ≤ t ∧ t < b.delta + d.delta then linesShown lines else [] := by
  obtain ⟨k, h1, h2, h3⟩ := interleave_times b.delta (b.delta + d.delta) lines c hc
  have hown : Doc.ownEnd 0 0 none { kind := .body, beg := some b, dur := some d } = some (b.delta + d.delta) := by
    simp [Doc.ownEnd, Doc.preEnd, Doc.eff, hb, hd, Int.add_comm]
  have hspan : (Doc.timesL 0 b.delta (some (b.delta + d.delta)) c).any (Doc.isSpan (fun x : Doc.Lab => x.att.kind)) = true := by
    clear h1 h2
    induction c generalizing lines with
    | nil => simp at h3
    | cons x xs ih =>
      rw [List.any_cons, Bool.or_eq_true] at h3
      rw [Doc.timesL, List.any_cons, Bool.or_eq_true]
      rcases h3 with h3 | h3
      · left
        cases x <;> simp_all [Doc.times, Doc.isSpan]
      · right
        rw [Doc.timesL_eq, List.any_map]
        rw [List.any_eq_true] at h3 ⊢
        obtain ⟨y, hy, hy'⟩ := h3
        exact ⟨y, hy, by cases y <;> simp_all [Doc.times, Doc.isSpan]⟩
  unfold Doc.shownAt Doc.leavesOf
  simp only [Doc.times, Doc.timesL, hown, Doc.below, Doc.eff, hb, if_false, Option.getD_some, Int.zero_add, Option.getD_none,
    Int.add_zero]
  have hownd : ∀ r i, Doc.ownEnd 0 b.delta (some (b.delta + d.delta)) { kind := .div, region := r, id := i } = none := by
    intro r i; simp [Doc.ownEnd, Doc.preEnd, Doc.baseEnd, Doc.eff]
  have hownp : ∀ r i, Doc.ownEnd 0 b.delta (some (b.delta + d.delta)) { kind := .p, region := r, id := i } = none := by
    intro r i; simp [Doc.ownEnd, Doc.preEnd, Doc.baseEnd, Doc.eff]
  rw [hownd, hownp]
  simp only
  rw [Doc.leaves, if_neg (by simp [Doc.Leaf]), Doc.leavesL, Doc.leavesL, Doc.leaves, if_neg (by simp [Doc.Leaf]), Doc.leavesL,
    Doc.leavesL, Doc.leaves, if_neg (by simp [Doc.Leaf, hspan]), h2]
  simp only [List.append_nil, List.filter_map, List.map_map, linesShown]
  by_cases ht : b.delta ≤ t ∧ t < b.delta + d.delta
  · rw [if_pos ht]
    rw [List.filter_eq_self.mpr (by intro x _; simp [Doc.Comp.at, ht.1, ht.2])]
    rfl
  · rw [if_neg ht]
    rw [List.filter_eq_nil_iff.mpr (by intro x _; simp [Doc.Comp.at]; omega)]
    rfl

/-- The limited clock reads back what it writes, in whole milliseconds. -/
theorem limitedClock_some (rd : Time.Reader) (hrd : rd.Accurate) (t : Int) (h0 : 0 ≤ t) (h1 : t < 360000000000) :
    ∃ text, Time.writeLimited t = some text ∧ limitedClock rd t = some ⟨text, Time.toMs t⟩ := by
  obtain ⟨hn, hr⟩ := Time.C20_limited_clock_round_trip rd hrd t h0
  cases hw : Time.writeLimited t with
  | none => have := hn.mp hw; omega
  | some text =>
    refine ⟨text, rfl, ?_⟩
    simp [limitedClock, hw, (hr text hw).1]

/-- What a response has to be when the producer has the given lines to send at `now`. -/
def Sends (num : Nat) (lines : List (List Char)) (now : Int) (r : Option Produced) : Prop :=
  ∃ p, r = some p ∧ p.num = num ∧
    (∃ content a1 a2 a3, p.body = .elem a1 [.elem a2 [.elem a3 content]] ∧ reading content = (lines.map Item.text).intersperse .br) ∧
    ∃ v, Doc.validateDoc 0 p.body = .ok v ∧
      ∀ t, Doc.shownAt v t =
        if Time.toMs (now + 1000000) ≤ t ∧ t < Time.toMs (now + 1000000) + 1000000 then linesShown lines else []

theorem produce_lines (rd : Time.Reader) (hrd : rd.Accurate) (now : Int) (h0 : 0 ≤ now) (h1 : now < 359999000000) (s : PState)
    {lines : List (List Char)} {blocks : Option (List (List (List Char)))} (hl : lines ≠ [])
    (hn : nextLines s (Time.writeLimited (now + 1000000)) = some (lines, blocks)) :
    (produce rd now s).1 = ⟨s.last + 1, blocks⟩ ∧ Sends (s.last + 1) lines now (produce rd now s).2 := by
  obtain ⟨tb, _, hb⟩ := limitedClock_some rd hrd (now + 1000000) (by omega) (by omega)
  obtain ⟨td, _, hd⟩ := limitedClock_some rd hrd 1000000 (by omega) (by omega)
  obtain ⟨c, hc, hread⟩ := interleave_some lines hl
  unfold produce
  simp only [hn, hc, hb, hd]
  refine ⟨trivial, _, rfl, rfl, ⟨c, _, _, _, rfl, hread⟩, _, Doc.validateDoc_eq _ _, ?_⟩
  intro t
  rw [produced_shows ⟨tb, Time.toMs (now + 1000000)⟩ ⟨td, Time.toMs 1000000⟩ (by simp only [Time.toMs]; omega) (by simp only [Time.toMs]; omega) lines c hc t]
  rfl

/-- **C52**  A producer with input blocks answers the `i`-th request with the document numbered `i` after the
sequence's last, containing the lines of the `i`-th block separated by line breaks, shown for exactly one
second from one second after the reference time (in whole milliseconds); when the blocks are used up it sends
nothing more.  For reference times up to 100 hours less a second and blocks that are not empty. -/
theorem C52_blocks (rd : Time.Reader) (hrd : rd.Accurate) : ∀ (ts : List Int) (last : Nat) (blocks : List (List (List Char))),
    (∀ t ∈ ts, 0 ≤ t ∧ t < 359999000000) → (∀ b ∈ blocks, b ≠ []) →
    (runP rd ⟨last, some blocks⟩ ts).2.length = ts.length ∧
    ∀ i r now, (runP rd ⟨last, some blocks⟩ ts).2[i]? = some r → ts[i]? = some now →
      match blocks[i]? with
      | some lines => Sends (last + 1 + i) lines now r
      | none => r = none
  | [], last, blocks, _, _ => ⟨rfl, by intro i r now h; simp [runP] at h⟩
  | t :: ts, last, [], ht, hb => by
    obtain ⟨h1, h2⟩ := C52_blocks rd hrd ts last [] (fun x hx => ht x (List.mem_cons_of_mem _ hx)) hb
    have hp : produce rd t ⟨last, some []⟩ = (⟨last, some []⟩, none) := rfl
    simp only [runP, hp]
    refine ⟨by simp [h1], ?_⟩
    intro i r now hr hn
    cases i with
    | zero => simp at hr; simp [hr]
    | succ i =>
      simp only [List.getElem?_cons_succ] at hr hn
      simpa using h2 i r now hr hn
  | t :: ts, last, b :: bs, ht, hb => by
    have htm := ht t List.mem_cons_self
    obtain ⟨hp1, hp2⟩ := produce_lines rd hrd t htm.1 htm.2 ⟨last, some (b :: bs)⟩ (hb b List.mem_cons_self) rfl
    obtain ⟨h1, h2⟩ := C52_blocks rd hrd ts (last + 1) bs (fun x hx => ht x (List.mem_cons_of_mem _ hx))
      (fun x hx => hb x (List.mem_cons_of_mem _ hx))
    simp only [runP, hp1]
    refine ⟨by simp [h1], ?_⟩
    intro i r now hr hn
    cases i with
    | zero =>
      simp at hr hn
      simp only [List.getElem?_cons_zero, Nat.add_zero]
      rw [← hr, ← hn]
      exact hp2
    | succ i =>
      simp only [List.getElem?_cons_succ] at hr hn ⊢
      have := h2 i r now hr hn
      rw [show last + 1 + 1 + i = last + 1 + (i + 1) by omega] at this
      exact this

/-- **C52**  A producer without input sends the time it will be shown at, in every answer. -/
theorem C52_clock (rd : Time.Reader) (hrd : rd.Accurate) : ∀ (ts : List Int) (last : Nat),
    (∀ t ∈ ts, 0 ≤ t ∧ t < 359999000000) →
    (runP rd ⟨last, none⟩ ts).2.length = ts.length ∧
    ∀ i r now, (runP rd ⟨last, none⟩ ts).2[i]? = some r → ts[i]? = some now →
      ∃ text, Time.readLimited rd text = some (Time.toMs (now + 1000000)) ∧ Sends (last + 1 + i) [text] now r
  | [], last, _ => ⟨rfl, by intro i r now h; simp [runP] at h⟩
  | t :: ts, last, ht => by
    have htm := ht t List.mem_cons_self
    obtain ⟨text, hw, _⟩ := limitedClock_some rd hrd (t + 1000000) (by omega) (by omega)
    obtain ⟨hp1, hp2⟩ := produce_lines rd hrd t htm.1 htm.2 ⟨last, none⟩ (lines := [text]) (blocks := none) (by simp)
      (by simp [nextLines, hw])
    obtain ⟨h1, h2⟩ := C52_clock rd hrd ts (last + 1) (fun x hx => ht x (List.mem_cons_of_mem _ hx))
    simp only [runP, hp1]
    refine ⟨by simp [h1], ?_⟩
    intro i r now hr hn
    cases i with
    | zero =>
      simp at hr hn
      rw [← hr, ← hn]
      exact ⟨text, ((Time.C20_limited_clock_round_trip rd hrd (t + 1000000) (by omega)).2 text hw).1, hp2⟩
    | succ i =>
      simp only [List.getElem?_cons_succ] at hr hn ⊢
      have := h2 i r now hr hn
      rw [show last + 1 + 1 + i = last + 1 + (i + 1) by omega] at this
      exact this

example : (runP Time.exactReader ⟨0, some [["a".toList, "b".toList], [" ".toList, "c".toList]]⟩ [0, 2500000, 9000000]).2.map
    (Option.map (fun p => (p.num, match Doc.validateDoc 0 p.body with
      | .ok v => [1000000, 1999999, 2000000, 3500000].map (Doc.shownAt v)
      | .error _ => []))) =
    [some (1, [[[.text "a".toList], [.text "b".toList]], [[.text "a".toList], [.text "b".toList]], [], []]),
     some (2, [[], [], [], [[.text "c".toList]]]), none] := by decide +kernel

end Verif.Node
