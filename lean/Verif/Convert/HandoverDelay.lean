import Verif.Convert.HandoverChainProps
import Verif.Convert.DelayChainProps

/-! C103: authors, a handover node, a retiming delay node, a resequencer and the EBU-TT-D encoder in one chain. -/
namespace Verif.Convert

open Verif.Doc Verif.Time Verif.Node

/-- The document that the handover node gives on, on its way to the delay node: it is the very object the node was given
(handover.py:79-90), with its own sequence identifier and number replaced. -/
def carry (d : NDoc Arriving) : Carried :=
  { doc := ⟨d.seqId, d.num, d.content.source.base, d.content.source.root⟩, uid := d.uid, clockMode := d.clockMode, agid := d.agid
    avail := d.content.now, rd := d.content.source.rd, ref := d.content.source.ref, styles := d.content.source.styles
    regions := d.content.source.regions }

/-- What comes to the delay node: what the handover node emits into its `process_document` while its own runs
(handover.py:87-97, carriage/direct.py:16-17).  A delivery that raises in the handover node raises at its producer and reaches nobody. -/
def between (hcfg : HCfg) (s : HState) : List HEv → List DEv
  | [] => []
  | .tick :: es => .tick :: between hcfg s es
  | .deliver i :: es =>
    match handover hcfg s i with
    | (s', .ok (some (.doc d))) => .deliver (carry d) :: between hcfg s' es
    | (s', .ok (some (.msg m))) => .msg m.payload :: between hcfg s' es
    | (s', .ok none) => between hcfg s' es
    | (s', .error _) => between hcfg s' es

/-! ### Specification -/

/-- The document as somebody has it who got it `δ` earlier than the delay node, but not before time zero. -/
def earlier (δ : Int) (d : NDoc Arriving) : Source := { d.content.source with avail := if d.content.now ≤ δ then 0 else d.content.now - δ }

/-- The times of its body (C14); none if it is not valid. -/
def earlierComp (δ : Int) (d : NDoc Arriving) : Option Comp :=
  match validateDoc (earlier δ d).avail (earlier δ d).root with
  | .ok (.elem x _) => some x.comp
  | _ => none

/-- When it begins. -/
def earlierBegin (δ : Int) (d : NDoc Arriving) : Int := ((earlierComp δ d).map Comp.b).getD 0

/-- When it ends, if it does. -/
def earlierEnd (δ : Int) (d : NDoc Arriving) : Option Int := (earlierComp δ d).bind Comp.e

/-! ### Proofs -/

theorem carried_between_from (hcfg : HCfg) : ∀ (evs : List HEv) (s : HState),
    carried (between hcfg s evs) = (docsOf (emitted (runH hcfg s (inputs evs)).2)).map carry
  | [], _ => rfl
  | .tick :: es, s => carried_between_from hcfg es s
  | .deliver i :: es, s => by
    have hin : inputs (.deliver i :: es) = i :: inputs es := rfl
    rw [hin]
    simp only [runH, between]
    cases hh : handover hcfg s i with
    | mk s' r =>
      have ih := carried_between_from hcfg es s'
      cases r with
      | error e => simpa [emitted] using ih
      | ok o =>
        cases o with
        | none => simpa [emitted] using ih
        | some x =>
          cases x with
          | msg m => simpa [emitted, docsOf, carried] using ih
          | doc d =>
            simp only [emitted, docsOf, List.map_cons, ← ih]
            rfl

theorem carried_between (hcfg : HCfg) (evs : List HEv) :
    carried (between hcfg {} evs) = (readdressed hcfg.outId 0 (passedOn hcfg (inputs evs))).map carry := by
  rw [carried_between_from]
  have : emitted (runH hcfg {} (inputs evs)).2 = output hcfg (inputs evs) := rfl
  rw [this, C34_output]

/-- A call of the resequencer's timer is one of the chain, with the same past. -/
theorem between_tick (hcfg : HCfg) : ∀ (evs : List HEv) (s : HState) (k : Nat), (between hcfg s evs)[k]? = some .tick →
    ∃ j, evs[j]? = some .tick ∧ (between hcfg s evs).take k = between hcfg s (evs.take j)
  | [], _, k, h => by simp [between] at h
  | .tick :: es, s, 0, _ => ⟨0, rfl, rfl⟩
  | .tick :: es, s, k + 1, h => by
    obtain ⟨j, h1, h2⟩ := between_tick hcfg es s k h
    exact ⟨j + 1, h1, by simp only [between, List.take_succ_cons, h2]⟩
  | .deliver i :: es, s, k, h => by
    simp only [between] at h ⊢
    cases hh : handover hcfg s i with
    | mk s' r =>
      rw [hh] at h
      have plain : (between hcfg s' es)[k]? = some .tick → ∃ j, (HEv.deliver i :: es)[j]? = some HEv.tick ∧
          (between hcfg s' es).take k = between hcfg s' (es.take (j - 1)) ∧ 0 < j := by
        intro hk
        obtain ⟨j, h1, h2⟩ := between_tick hcfg es s' k hk
        exact ⟨j + 1, h1, h2, by omega⟩
      have step : ∀ (e : DEv), e ≠ .tick → (e :: between hcfg s' es)[k]? = some .tick → ∃ j, (HEv.deliver i :: es)[j]? = some HEv.tick ∧
          (e :: between hcfg s' es).take k = e :: between hcfg s' (es.take (j - 1)) ∧ 0 < j := by
        intro e he hk
        cases k with
        | zero =>
          simp only [List.getElem?_cons_zero, Option.some.injEq] at hk
          exact absurd hk he
        | succ k =>
          obtain ⟨j, h1, h2⟩ := between_tick hcfg es s' k hk
          exact ⟨j + 1, h1, by rw [List.take_succ_cons, h2]; rfl, by omega⟩
      cases r with
      | error e =>
        obtain ⟨j, h1, h2, h3⟩ := plain h
        refine ⟨j, h1, ?_⟩
        obtain ⟨j, rfl⟩ : ∃ i, j = i + 1 := ⟨j - 1, by omega⟩
        simpa [between, hh] using h2
      | ok o =>
        cases o with
        | none =>
          obtain ⟨j, h1, h2, h3⟩ := plain h
          refine ⟨j, h1, ?_⟩
          obtain ⟨j, rfl⟩ : ∃ i, j = i + 1 := ⟨j - 1, by omega⟩
          simpa [between, hh] using h2
        | some x =>
          cases x with
          | msg m =>
            obtain ⟨j, h1, h2, h3⟩ := step _ (by simp) h
            refine ⟨j, h1, ?_⟩
            obtain ⟨j, rfl⟩ : ∃ i, j = i + 1 := ⟨j - 1, by omega⟩
            simpa [between, hh] using h2
          | doc d =>
            obtain ⟨j, h1, h2, h3⟩ := step _ (by simp) h
            refine ⟨j, h1, ?_⟩
            obtain ⟨j, rfl⟩ : ∃ i, j = i + 1 := ⟨j - 1, by omega⟩
            simpa [between, hh] using h2

/-- The document passed on as number `n`. -/
def numbered (hcfg : HCfg) (n : Nat) (d : NDoc Arriving) : Carried := carry { d with selected := some d.seqId, seqId := hcfg.outId, num := n }

theorem mem_between {hcfg : HCfg} {evs : List HEv} {x : Carried} (hx : x ∈ carried (between hcfg {} evs)) :
    ∃ d n, d ∈ passedOn hcfg (inputs evs) ∧ x = numbered hcfg n d := by
  rw [carried_between, List.mem_map] at hx
  obtain ⟨b, hb, rfl⟩ := hx
  obtain ⟨pre, d, post, h1, rfl⟩ := mem_readdressed.1 hb
  exact ⟨d, _, by rw [h1]; simp, rfl⟩

theorem begins_numbered (hcfg : HCfg) (n : Nat) (δ : Int) (d : NDoc Arriving) : (numbered hcfg n d).begins δ = (carry d).begins δ := rfl

theorem ends_numbered (hcfg : HCfg) (n : Nat) (δ : Int) (d : NDoc Arriving) : (numbered hcfg n d).ends δ = (carry d).ends δ := rfl

theorem early_numbered (hcfg : HCfg) (n : Nat) (δ : Int) (d : NDoc Arriving) : (numbered hcfg n d).early δ = (carry d).early δ := rfl

theorem late_numbered (hcfg : HCfg) (n : Nat) (rd : Reader) (δ : Int) (d : NDoc Arriving) : (numbered hcfg n d).late rd δ = (carry d).late rd δ := rfl

theorem fit_numbered {hcfg : HCfg} {n : Nat} {δ : Int} {base : TimeBase} {d : NDoc Arriving} (h : Fit δ base (carry d)) :
    Fit δ base (numbered hcfg n d) :=
  ⟨h.steady, h.timed, h.rd, h.avail, h.sane, h.inMs, h.lined, h.flat, h.base⟩

theorem course_between {hcfg : HCfg} {evs : List HEv} {δ : Int} {base : TimeBase} {cfg : Seq.Cfg}
    (hclock : ∀ d ∈ passedOn hcfg (inputs evs), clockOf { d.toDoc with seqId := hcfg.outId } = some cfg)
    (hbase : ∀ d ∈ passedOn hcfg (inputs evs), d.timeBase = baseText d.content.source.base)
    (hfit : ∀ d ∈ passedOn hcfg (inputs evs), Fit δ base (carry d)) :
    Course δ hcfg.outId cfg hcfg.agid base (carried (between hcfg {} evs)) := by
  refine ⟨?_, ?_, ?_, ?_, ?_⟩
  · rw [carried_between, List.pairwise_map]
    exact readdressed_pairwise _ _ _
  · intro x hx
    obtain ⟨d, n, hd, rfl⟩ := mem_between hx
    rfl
  · intro x hx
    obtain ⟨d, n, hd, rfl⟩ := mem_between hx
    have h1 := hclock d hd
    rw [← h1]
    unfold clockOf
    have e1 : ((numbered hcfg n d).near δ).timeBase = d.timeBase := by rw [hbase d hd]; rfl
    have e2 : ((numbered hcfg n d).near δ).clockMode = d.clockMode := rfl
    have e3 : ((numbered hcfg n d).near δ).seqId = hcfg.outId := rfl
    simp only [e1, e2, e3]
  · intro x hx
    obtain ⟨d, n, hd, rfl⟩ := mem_between hx
    exact ((C35_switches_only_up hcfg (inputs evs)).2 d hd).1
  · intro x hx
    obtain ⟨d, n, hd, rfl⟩ := mem_between hx
    exact fit_numbered (hfit d hd)

theorem carry_before (δ : Int) (d : NDoc Arriving) : (carry d).before δ = (earlier δ d).avail := by
  unfold Delivery.before earlier carry
  simp only
  split <;> omega

theorem carry_begins (δ : Int) (d : NDoc Arriving) : (carry d).begins δ = earlierBegin δ d := by
  unfold Carried.begins Delivery.near Node.heldAs earlierBegin earlierComp
  rw [carry_before]
  simp only [carry, earlier]
  split <;> simp_all

theorem carry_ends (δ : Int) (d : NDoc Arriving) : (carry d).ends δ = earlierEnd δ d := by
  unfold Carried.ends Delivery.near Node.heldAs earlierEnd earlierComp
  rw [carry_before]
  simp only [carry, earlier]
  split <;> simp_all

theorem carry_early (δ : Int) (d : NDoc Arriving) : (carry d).early δ = earlier δ d := by
  unfold Carried.early Carried.source
  rw [carry_before]
  rfl

/-! ### Theorem -/

/-- **C103**  The chain of `C103_played_partial` with a retiming delay node behind the handover node.  The resequencer's timer never stops,
there is a converted document for each call of it after the first document passed on, and of the converted documents is read, at every
media time they cover, the text that the author in control gave for the instant the delay earlier: that of the last document passed on that
had begun then, of those that were passed on before the segment was made, until it ends.  The documents are taken with the times they have
for somebody who got them the delay earlier.

Under the conditions of C103 and C104; the documents come without availability times. -/
theorem C103_delayed_partial (hcfg : HCfg) (evs : List HEv) (cfg : Seq.Cfg) (passed : List (NDoc Arriving))
    (hpassed : passed = passedOn hcfg (inputs evs)) (_hnew : ∀ d ∈ passed, d.content.avail = none)
    (hclock : ∀ d ∈ passed, clockOf { d.toDoc with seqId := hcfg.outId } = some cfg)
    (hbase : ∀ d ∈ passed, d.timeBase = baseText d.content.source.base)
    (rd : Reader) (hrd : rd.Accurate) (δ : Int) (hδ : 0 < δ) (hδm : δ % 1000 = 0) (hδ1 : δ < 360000000000)
    (out : String) (hne : hcfg.outId ≠ out) (m : Media) (hfit : ∀ d ∈ passed, Fit δ m.base (carry d) ∧ Copies ((carry d).late rd δ))
    (discard : Bool) (start len : Int) (hl : 0 < len) (hms : start % 1000 = 0 ∧ len % 1000 = 0) (hmrd : m.rd.Accurate) (hz0 : 0 ≤ m.zero)
    (hzms : m.base = .clock → m.zero % 1000 = 0) (hz : m.base = .clock → m.zero ≤ start)
    (fin : Int) (hfin : fin = start + timerCalls (between hcfg {} evs) * len) (htop : fin < 100 * 3600000000)
    (run : List HEv → Timed RState (List (Option (Node Att))) × List (RSeg (Option SDoc)))
    (hrun : run = fun es => runTR (extract (sourceOf (fun x => x.late rd δ) (carried (between hcfg {} evs))) discard) (toEncoder m) len
      ⟨{ lastEnd := start }, [], true⟩ (behindDelay rd out δ {} (between hcfg {} es))) :
    (run evs).1.on = true ∧ (run evs).1.down.length = timerCalls (between hcfg {} evs) ∧
    ∀ u t, 0 ≤ u → t = u + m.shift →
      (start ≤ t ∧ t < fin →
        ∃ k, evs[k]? = some .tick ∧ start + timerCalls (between hcfg {} (evs.take k)) * len ≤ t ∧
          t < start + timerCalls (between hcfg {} (evs.take k)) * len + len ∧
          (∀ (pre : List (NDoc Arriving)) (d : NDoc Arriving) (post : List (NDoc Arriving)),
            passedOn hcfg (inputs (evs.take k)) = pre ++ d :: post → earlierBegin δ d ≤ t - δ → (∀ y ∈ post, t - δ < earlierBegin δ y) →
            readOf (run evs).1.down u = if ∀ e, earlierEnd δ d = some e → t - δ < e then linesIn (earlier δ d) (t - δ) else []) ∧
          ((∀ d ∈ passedOn hcfg (inputs (evs.take k)), t - δ < earlierBegin δ d) → readOf (run evs).1.down u = [])) ∧
      (¬(start ≤ t ∧ t < fin) → readOf (run evs).1.down u = []) := by
  subst hpassed
  have hcourse := course_between (δ := δ) (base := m.base) hclock hbase (fun d hd => (hfit d hd).1)
  obtain ⟨h1, h2, h3⟩ := C104_read_later_partial rd hrd δ hδ hδm hδ1 hcfg.outId out hne cfg hcfg.agid (between hcfg {} evs) _ rfl m hcourse
    (by
      intro x hx
      obtain ⟨d, n, hd, rfl⟩ := mem_between hx
      rw [late_numbered]
      exact (hfit d hd).2)
    discard start len hl hms hmrd hz0 hzms hz fin hfin htop _ rfl
  have hr : ∀ es, run es = runTR (extract (sourceOf (fun x => x.late rd δ) (carried (between hcfg {} evs))) discard) (toEncoder m) len
      ⟨{ lastEnd := start }, [], true⟩ (behindDelay rd out δ {} (between hcfg {} es)) := fun es => by rw [hrun]
  simp only [← hr] at h1 h2 h3
  refine ⟨h1, h2, fun u t hu ht => ?_⟩
  obtain ⟨g1, g2⟩ := h3 u t hu ht
  refine ⟨fun hin => ?_, g2⟩
  obtain ⟨j, hj, _, hlo, hhi, hread, hnone⟩ := g1 hin
  obtain ⟨k, hk, htake⟩ := between_tick hcfg evs {} j hj
  rw [htake] at hlo hhi hread hnone
  refine ⟨k, hk, hlo, hhi, ?_, ?_⟩
  · intro pre d post hp hb hpost
    have hsplit : carried (between hcfg {} (evs.take k)) = (readdressed hcfg.outId 0 pre).map carry ++
        numbered hcfg (0 + pre.length + 1) d :: (readdressed hcfg.outId (0 + pre.length + 1) post).map carry := by
      rw [carried_between, hp, readdressed_append, readdressed, List.map_append, List.map_cons]
      rfl
    have hread := hread _ _ _ hsplit
    rw [begins_numbered, ends_numbered, early_numbered, carry_begins, carry_ends, carry_early] at hread
    refine hread hb ?_
    intro y hy
    obtain ⟨b, hb', rfl⟩ := List.mem_map.1 hy
    obtain ⟨p1, d', p2, e1, rfl⟩ := mem_readdressed.1 hb'
    have := hpost d' (by rw [e1]; simp)
    rw [← carry_begins, ← begins_numbered hcfg (0 + pre.length + 1 + p1.length + 1)] at this
    exact this
  · intro hall
    apply hnone
    intro x hx
    obtain ⟨d, n, hd, rfl⟩ := mem_between hx
    rw [begins_numbered, carry_begins]
    exact hall d hd

/-! ### Example: two authors and a delay of two seconds -/

/-- A document of an author, delivered at 2.1 s. -/
def exLateAuthored (sid : String) (n : Nat) (tok : Nat) (b e : Nat) (one two : String) : NDoc Arriving :=
  { exAuthored sid n tok b e one two with
    content := { now := 2100000, avail := none, source := { exSource (exTwoLines b e one two) with base := .clock } } }

/-- Author `a` writes, a message goes by, author `b` takes over, and what `a` writes then is not passed on. -/
def exTakeoverLate : List HEv :=
  [.tick, .deliver (.doc (exLateAuthored "a" 1 1 1 9 "a" "b")), .tick, .deliver (.msg ⟨"a", "hello"⟩),
   .deliver (.doc (exLateAuthored "b" 7 2 5 8 "c" "d")), .deliver (.doc (exLateAuthored "a" 2 1 6 9 "e" "f")), .tick, .tick]

theorem exTakeoverLate_passed : passedOn exGroup (inputs exTakeoverLate) = [exLateAuthored "a" 1 1 1 9 "a" "b", exLateAuthored "b" 7 2 5 8 "c" "d"] := rfl

theorem exLate_fit {d : NDoc Arriving} (hd : d ∈ passedOn exGroup (inputs exTakeoverLate)) : Fit 2000000 exHalf.base (carry d) := by
  rw [exTakeoverLate_passed] at hd
  have t1 : (carry (exLateAuthored "a" 1 1 1 9 "a" "b")).begins 2000000 = 1000000 ∧
    (carry (exLateAuthored "a" 1 1 1 9 "a" "b")).ends 2000000 = some 9000000 := by decide +kernel
  have t2 : (carry (exLateAuthored "b" 7 2 5 8 "c" "d")).begins 2000000 = 5000000 ∧
    (carry (exLateAuthored "b" 7 2 5 8 "c" "d")).ends 2000000 = some 8000000 := by decide +kernel
  simp only [List.mem_cons, List.not_mem_nil, or_false] at hd
  rcases hd with rfl | rfl
  · refine ⟨⟨by decide, _, _, rfl, rfl, by decide, by decide +kernel, .inl rfl⟩, ?_, exactReader_accurate, by decide,
      sane_of rfl (by decide) (by decide), by decide, by decide, by decide, rfl⟩
    unfold Carried.begins Carried.ends at t1
    exact ⟨by rw [t1.1]; omega, by intro e he; rw [t1.2, Option.some.injEq] at he; rw [t1.1]; omega⟩
  · refine ⟨⟨by decide, _, _, rfl, rfl, by decide, by decide +kernel, .inl rfl⟩, ?_, exactReader_accurate, by decide,
      sane_of rfl (by decide) (by decide), by decide, by decide, by decide, rfl⟩
    unfold Carried.begins Carried.ends at t2
    exact ⟨by rw [t2.1]; omega, by intro e he; rw [t2.2, Option.some.injEq] at he; rw [t2.1]; omega⟩

/-- The hypotheses of `C103_delayed_partial` hold with a delay of two seconds, segments of three seconds from 3 s on and media time zero at
half a second.  What `a` wrote for 1 s on is read from media time 2.5 s on, what `b` wrote for 5 s to 8 s from 6.5 s to 9.5 s. -/
example : (∀ d ∈ passedOn exGroup (inputs exTakeoverLate), d.content.avail = none ∧
      clockOf { d.toDoc with seqId := exGroup.outId } = some ⟨"out", "clock", some "local"⟩ ∧
      d.timeBase = baseText d.content.source.base ∧ Fit 2000000 exHalf.base (carry d) ∧ Copies ((carry d).late exactReader 2000000)) ∧
    timerCalls (between exGroup {} exTakeoverLate) = 3 ∧
    [2499999, 2500000, 6499999, 6500000, 9499999, 9500000].map (readOf
        (runTR (extract (sourceOf (fun x => x.late exactReader 2000000) (carried (between exGroup {} exTakeoverLate))) true) (toEncoder exHalf)
          3000000 ⟨{ lastEnd := 3000000 }, [], true⟩ (behindDelay exactReader "delayed" 2000000 {} (between exGroup {} exTakeoverLate))).1.down) =
      [[], [[.text ['a'], .br, .text ['b']]], [[.text ['a'], .br, .text ['b']]], [[.text ['c'], .br, .text ['d']]],
        [[.text ['c'], .br, .text ['d']]], []] := by
  refine ⟨?_, by decide, by decide +kernel⟩
  intro d hd
  have hf := exLate_fit hd
  rw [exTakeoverLate_passed] at hd
  simp only [List.mem_cons, List.not_mem_nil, or_false] at hd
  rcases hd with rfl | rfl
  · exact ⟨rfl, by decide, rfl, hf, exCopies _ rfl _ _⟩
  · exact ⟨rfl, by decide, rfl, hf, exCopies _ rfl _ _⟩

end Verif.Convert
