import Verif.Convert.HandoverChain
import Verif.Convert.TimerChainProps
import Verif.Node.HandoverSeqProps

/-! C103: behind a handover node, the readers of the EBU-TT-D documents read the text of the author in control. -/
namespace Verif.Convert

open Verif.Doc Verif.Time Verif.Node

/-- Specification: what was delivered to the handover node. -/
def inputs (evs : List HEv) : List (In Arriving) :=
  evs.filterMap (fun e => match e with
    | .deliver i => some i
    | .tick => none)

/-- Specification: the delivered document with the availability time it has, or gets on delivery. -/
def asHeld (d : NDoc Arriving) : Source := { d.content.source with avail := d.content.avail.getD d.content.now }

/-- Specification: the times of the document's body once it is validated with that availability time (C14); none if it is not valid. -/
def bodyComp (d : NDoc Arriving) : Option Comp :=
  match validateDoc (asHeld d).avail (asHeld d).root with
  | .ok (.elem x _) => some x.comp
  | _ => none

/-- Specification: when the document begins. -/
def begins (d : NDoc Arriving) : Int := ((bodyComp d).map Comp.b).getD 0

/-- Specification: when it ends, if it does. -/
def ends (d : NDoc Arriving) : Option Int := (bodyComp d).bind Comp.e

/-- Specification: the times the resequencer's sequence works with. -/
def timed (d : NDoc Arriving) : Seq.Doc := { d.toDoc with cbegin := begins d, cend := ends d }

/-- Specification: the document that the resequencer holds as number `n` is the `n`-th of those passed on. -/
def nthSource (passed : List (NDoc Arriving)) (a : Seq.Doc) : Source :=
  match passed[a.num - 1]? with
  | some d => asHeld d
  | none => { root := .elem { kind := .body } [], avail := 0, base := .media, rd := exactReader, ref := fun _ n => some n
              styles := fun _ => none, regions := fun _ => none }

/-- The passed-on document `d`, the `n`-th one, as the resequencer holds it. -/
def heldAs (hcfg : HCfg) (n : Nat) (d : NDoc Arriving) : Seq.Doc := { timed d with seqId := hcfg.outId, num := n }

/-! ### What the resequencer gets -/

theorem arrived_toC (d : NDoc Arriving) : arrived d.content.now (toC d) = timed d := by
  unfold arrived toC timed begins ends bodyComp bodyTimes asHeld
  cases d.content.avail <;> simp only [Option.getD] <;> split <;> simp_all

theorem deliveries_behind (hcfg : HCfg) : ∀ (evs : List HEv) (s : HState),
    deliveries (behind hcfg s evs) = (docsOf (emitted (runH hcfg s (inputs evs)).2)).map timed
  | [], _ => rfl
  | .tick :: es, s => deliveries_behind hcfg es s
  | .deliver i :: es, s => by
    have hin : inputs (.deliver i :: es) = i :: inputs es := rfl
    rw [hin]
    simp only [runH, behind]
    cases hh : handover hcfg s i with
    | mk s' r =>
      have ih := deliveries_behind hcfg es s'
      cases r with
      | error e => simpa [emitted] using ih
      | ok o =>
        cases o with
        | none => simpa [emitted] using ih
        | some x =>
          cases x with
          | msg m => simpa [emitted, docsOf, deliveries] using ih
          | doc d =>
            simp only [emitted, docsOf, List.map_cons, ← ih, ← arrived_toC d]
            rfl

theorem mem_deliveries {hcfg : HCfg} {evs : List HEv} {a : Seq.Doc} : a ∈ deliveries (behind hcfg {} evs) ↔
    ∃ pre d post, passedOn hcfg (inputs evs) = pre ++ d :: post ∧ a = heldAs hcfg (pre.length + 1) d := by
  rw [deliveries_behind, List.mem_map]
  have : emitted (runH hcfg {} (inputs evs)).2 = output hcfg (inputs evs) := rfl
  rw [this, C34_output]
  constructor
  · rintro ⟨b, hb, he⟩
    obtain ⟨pre, d, post, h1, h2⟩ := mem_readdressed.1 hb
    refine ⟨pre, d, post, h1, ?_⟩
    rw [← he, h2, Nat.zero_add]
    rfl
  · rintro ⟨pre, d, post, h1, h2⟩
    refine ⟨_, mem_readdressed.2 ⟨pre, d, post, h1, rfl⟩, ?_⟩
    rw [h2, Nat.zero_add]
    rfl

theorem behind_inSeq {hcfg : HCfg} {cfg : Seq.Cfg} {evs : List HEv}
    (hclock : ∀ d ∈ passedOn hcfg (inputs evs), clockOf { d.toDoc with seqId := hcfg.outId } = some cfg)
    (hwt : ∀ d ∈ passedOn hcfg (inputs evs), Seq.WellTimed (timed d)) :
    InSeq cfg hcfg.agid (deliveries (behind hcfg {} evs)) := by
  refine ⟨?_, ?_, ?_, ?_⟩
  · rw [deliveries_behind, List.pairwise_map]
    have : emitted (runH hcfg {} (inputs evs)).2 = output hcfg (inputs evs) := rfl
    rw [this, C34_output]
    exact readdressed_pairwise _ _ _
  · intro a ha
    obtain ⟨pre, d, post, h1, h2⟩ := mem_deliveries.1 ha
    have := hwt d (by rw [h1]; simp)
    rw [h2]
    exact this
  · intro a ha
    obtain ⟨pre, d, post, h1, h2⟩ := mem_deliveries.1 ha
    have := hclock d (by rw [h1]; simp)
    rw [h2]
    exact this
  · intro a ha
    obtain ⟨pre, d, post, h1, h2⟩ := mem_deliveries.1 ha
    rw [h2]
    exact ((C35_switches_only_up hcfg (inputs evs)).2 d (by rw [h1]; simp)).1

/-- A call of the resequencer's timer is one of the chain, with the same past. -/
theorem behind_tick (hcfg : HCfg) : ∀ (evs : List HEv) (s : HState) (k : Nat), (behind hcfg s evs)[k]? = some .tick →
    ∃ j, evs[j]? = some .tick ∧ (behind hcfg s evs).take k = behind hcfg s (evs.take j)
  | [], _, k, h => by simp [behind] at h
  | .tick :: es, s, 0, _ => ⟨0, rfl, rfl⟩
  | .tick :: es, s, k + 1, h => by
    obtain ⟨j, h1, h2⟩ := behind_tick hcfg es s k h
    exact ⟨j + 1, h1, by simp only [behind, List.take_succ_cons, h2]⟩
  | .deliver i :: es, s, k, h => by
    simp only [behind] at h ⊢
    cases hh : handover hcfg s i with
    | mk s' r =>
      rw [hh] at h
      have plain : (behind hcfg s' es)[k]? = some .tick → ∃ j, (HEv.deliver i :: es)[j]? = some .tick ∧
          (behind hcfg s' es).take k = behind hcfg s' (es.take (j - 1)) ∧ 0 < j := by
        intro hk
        obtain ⟨j, h1, h2⟩ := behind_tick hcfg es s' k hk
        exact ⟨j + 1, h1, h2, by omega⟩
      have step : ∀ (e : REv), e ≠ .tick → (e :: behind hcfg s' es)[k]? = some .tick → ∃ j, (HEv.deliver i :: es)[j]? = some .tick ∧
          (e :: behind hcfg s' es).take k = e :: behind hcfg s' (es.take (j - 1)) ∧ 0 < j := by
        intro e he hk
        cases k with
        | zero =>
          simp only [List.getElem?_cons_zero, Option.some.injEq] at hk
          exact absurd hk he
        | succ k =>
          obtain ⟨j, h1, h2⟩ := behind_tick hcfg es s' k hk
          exact ⟨j + 1, h1, by rw [List.take_succ_cons, h2]; rfl, by omega⟩
      cases r with
      | error e =>
        obtain ⟨j, h1, h2, h3⟩ := plain h
        refine ⟨j, h1, ?_⟩
        obtain ⟨j, rfl⟩ : ∃ i, j = i + 1 := ⟨j - 1, by omega⟩
        simpa [behind, hh] using h2
      | ok o =>
        cases o with
        | none =>
          obtain ⟨j, h1, h2, h3⟩ := plain h
          refine ⟨j, h1, ?_⟩
          obtain ⟨j, rfl⟩ : ∃ i, j = i + 1 := ⟨j - 1, by omega⟩
          simpa [behind, hh] using h2
        | some x =>
          cases x with
          | msg m =>
            obtain ⟨j, h1, h2, h3⟩ := step _ (by simp) h
            refine ⟨j, h1, ?_⟩
            obtain ⟨j, rfl⟩ : ∃ i, j = i + 1 := ⟨j - 1, by omega⟩
            simpa [behind, hh] using h2
          | doc d =>
            obtain ⟨j, h1, h2, h3⟩ := step _ (by simp) h
            refine ⟨j, h1, ?_⟩
            obtain ⟨j, rfl⟩ : ∃ i, j = i + 1 := ⟨j - 1, by omega⟩
            simpa [behind, hh] using h2

theorem inputs_take (evs : List HEv) (j : Nat) : ∃ rest, inputs evs = inputs (evs.take j) ++ rest := by
  refine ⟨inputs (evs.drop j), ?_⟩
  conv_lhs => rw [← List.take_append_drop j evs]
  simp only [inputs, List.filterMap_append]

theorem passedOn_append (hcfg : HCfg) (a b : List (In Arriving)) : ∃ rest, passedOn hcfg (a ++ b) = passedOn hcfg a ++ rest := by
  unfold passedOn
  rw [runH_append, chosen_append _ _ _ _ (runH_length hcfg {} a)]
  exact ⟨_, rfl⟩

theorem passedOn_take (hcfg : HCfg) (evs : List HEv) (j : Nat) :
    ∃ rest, passedOn hcfg (inputs evs) = passedOn hcfg (inputs (evs.take j)) ++ rest := by
  obtain ⟨r, hr⟩ := inputs_take evs j
  rw [hr]
  exact passedOn_append hcfg _ _

theorem nthSource_held (hcfg : HCfg) {passed pre post : List (NDoc Arriving)} {d : NDoc Arriving} (h : passed = pre ++ d :: post) :
    nthSource passed (heldAs hcfg (pre.length + 1) d) = asHeld d := by
  unfold nthSource
  have : (heldAs hcfg (pre.length + 1) d).num - 1 = pre.length := rfl
  rw [this, h, List.getElem?_append_right (Nat.le_refl _), Nat.sub_self]
  rfl

/-- The last begun of the documents passed on is the newest begun of those the resequencer got. -/
theorem newest_behind {hcfg : HCfg} {evs : List HEv} {t : Int} {a : Seq.Doc} : Seq.Newest (deliveries (behind hcfg {} evs)) t a ↔
    ∃ pre d post, passedOn hcfg (inputs evs) = pre ++ d :: post ∧ a = heldAs hcfg (pre.length + 1) d ∧ begins d ≤ t ∧
      ∀ y ∈ post, t < begins y := by
  constructor
  · rintro ⟨ha, hb, hnew⟩
    obtain ⟨pre, d, post, h1, h2⟩ := mem_deliveries.1 ha
    refine ⟨pre, d, post, h1, h2, by rw [h2] at hb; exact hb, ?_⟩
    intro y hy
    apply Classical.byContradiction
    intro hlt
    obtain ⟨p1, p2, hp⟩ := List.append_of_mem hy
    have hmem : heldAs hcfg ((pre ++ d :: p1).length + 1) y ∈ deliveries (behind hcfg {} evs) :=
      mem_deliveries.2 ⟨pre ++ d :: p1, y, p2, by rw [h1, hp]; simp, rfl⟩
    have := hnew _ hmem (Int.not_lt.1 hlt)
    rw [h2] at this
    simp only [heldAs, List.length_append, List.length_cons] at this
    omega
  · rintro ⟨pre, d, post, h1, h2, hb, hpost⟩
    refine ⟨mem_deliveries.2 ⟨pre, d, post, h1, h2⟩, by rw [h2]; exact hb, ?_⟩
    intro y hy hyb
    obtain ⟨pre', d', post', h1', h2'⟩ := mem_deliveries.1 hy
    rw [h2', h2]
    simp only [heldAs]
    apply Classical.byContradiction
    intro hlt
    have hlen : pre.length < pre'.length := by omega
    have hd' : d' ∈ post := by
      have e1 : (passedOn hcfg (inputs evs))[pre'.length]? = some d' := by
        rw [h1', List.getElem?_append_right (Nat.le_refl _), Nat.sub_self]; rfl
      rw [h1, List.getElem?_append_right (by omega)] at e1
      obtain ⟨i, hi⟩ : ∃ i, pre'.length - pre.length = i + 1 := ⟨pre'.length - pre.length - 1, by omega⟩
      rw [hi, List.getElem?_cons_succ] at e1
      exact List.mem_of_getElem? e1
    have hlt' := hpost d' hd'
    rw [h2'] at hyb
    have : begins d' ≤ t := hyb
    omega

/-- **C103**  Any number of producers deliver documents and messages to a handover node, at any moments; behind it a resequencer with its timer
hands its segments to the EBU-TT-D encoder.  The resequencer's timer never stops, there is a converted document for each call of it after the
first document passed on, and of the converted documents is read, at every media time they cover, the text of the last document passed on
that had begun at that instant, of those that were passed on before the segment with that instant was made, until it ends.

For documents passed on that have one time base and clock, sensible computed times in whole milliseconds, lines that hold no other lines
and no nested paragraphs. -/
theorem C103_played_partial (hcfg : HCfg) (evs : List HEv) (cfg : Seq.Cfg) (passed : List (NDoc Arriving))
    (hpassed : passed = passedOn hcfg (inputs evs))
    (hclock : ∀ d ∈ passed, clockOf { d.toDoc with seqId := hcfg.outId } = some cfg)
    (hwt : ∀ d ∈ passed, Seq.WellTimed (timed d))
    (discard : Bool) (start len : Int) (hl : 0 < len) (hms : start % 1000 = 0 ∧ len % 1000 = 0)
    (m : Media) (hrd : m.rd.Accurate) (hz0 : 0 ≤ m.zero) (hzms : m.base = .clock → m.zero % 1000 = 0) (hz : m.base = .clock → m.zero ≤ start)
    (fin : Int) (hfin : fin = start + ticksAfterFirst (behind hcfg {} evs) * len) (htop : fin < 100 * 3600000000)
    (hdocs : ∀ d ∈ passed, (asHeld d).Sound (timed d) fin ∧ lined true d.content.source.root = true ∧ flat d.content.source.root = true ∧
      d.content.source.base = m.base)
    (run : List HEv → Timed RState (List (Option (Node Att))) × List (RSeg (Option SDoc)))
    (hrun : run = fun es => runTR (extract (nthSource passed) discard) (toEncoder m) len ⟨{ lastEnd := start }, [], true⟩ (behind hcfg {} es)) :
    (run evs).1.on = true ∧ (run evs).1.down.length = ticksAfterFirst (behind hcfg {} evs) ∧
    ∀ u, 0 ≤ u →
      (start ≤ u + m.shift ∧ u + m.shift < fin →
        ∃ k st, evs[k]? = some .tick ∧ st = (run (evs.take k)).1.node ∧ st.lastEnd ≤ u + m.shift ∧ u + m.shift < st.lastEnd + len ∧
          (∀ pre d post, passedOn hcfg (inputs (evs.take k)) = pre ++ d :: post → begins d ≤ u + m.shift →
            (∀ y ∈ post, u + m.shift < begins y) →
            readOf (run evs).1.down u = if ∀ e, ends d = some e → u + m.shift < e then linesIn (asHeld d) (u + m.shift) else []) ∧
          ((∀ d ∈ passedOn hcfg (inputs (evs.take k)), u + m.shift < begins d) → readOf (run evs).1.down u = [])) ∧
      (¬(start ≤ u + m.shift ∧ u + m.shift < fin) → readOf (run evs).1.down u = []) := by
  subst hrun
  have hin : InSeq cfg hcfg.agid (deliveries (behind hcfg {} evs)) := behind_inSeq (hpassed ▸ hclock) (hpassed ▸ hwt)
  have hd : ∀ a ∈ deliveries (behind hcfg {} evs), (nthSource passed a).Sound a fin ∧ lined true (nthSource passed a).root = true ∧
      flat (nthSource passed a).root = true ∧ (nthSource passed a).base = m.base := by
    intro a ha
    obtain ⟨pre, d, post, h1, h2⟩ := mem_deliveries.1 ha
    rw [← hpassed] at h1
    obtain ⟨hs, h3⟩ := hdocs d (by rw [h1]; simp)
    rw [h2, nthSource_held hcfg h1]
    exact ⟨⟨hs.rd, hs.avail, hs.availMs, hs.sane, hs.shaped, hs.wellTimed, hs.inMs, hs.base, hs.refs, hs.times⟩, h3⟩
  obtain ⟨h1, h2, h3⟩ := C101_chain_partial (src := nthSource passed) (discard := discard) hl hms (behind hcfg {} evs) hin m hrd hz0 hzms hz fin
    hfin htop hd _ rfl
  refine ⟨h1, h2, fun u hu => ?_⟩
  obtain ⟨g1, g2⟩ := h3 u hu
  refine ⟨fun hr => ?_, g2⟩
  obtain ⟨k', st, hk, _, hst, _, hlo, hhi, hread, hnone⟩ := g1 hr
  obtain ⟨k, hk', htake⟩ := behind_tick hcfg evs {} k' hk
  rw [htake] at hst hread hnone
  refine ⟨k, st, hk', hst, hlo, hhi, ?_, ?_⟩
  · intro pre d post hp hb hpost
    obtain ⟨rest, hrest⟩ := passedOn_take hcfg evs k
    have hp' : passed = pre ++ d :: (post ++ rest) := by rw [hpassed, hrest, hp]; simp
    have hnew : Seq.Newest (deliveries (behind hcfg {} (evs.take k))) (u + m.shift) (heldAs hcfg (pre.length + 1) d) :=
      newest_behind.2 ⟨pre, d, post, hp, rfl, hb, hpost⟩
    by_cases he : ∀ e, ends d = some e → u + m.shift < e
    · rw [if_pos he, hread _ hnew he, nthSource_held hcfg hp']
    · rw [if_neg he]
      apply hnone
      intro a ha
      have : a = heldAs hcfg (pre.length + 1) d := by
        obtain ⟨pre', d', post', q1, q2, q3, q4⟩ := newest_behind.1 ha
        have l1 := hnew.2.2 a ha.1 ha.2.1
        have l2 := ha.2.2 _ hnew.1 hnew.2.1
        rw [q2] at l1 l2
        have hlen : pre'.length = pre.length := by simp only [heldAs] at l1 l2; omega
        have : pre' = pre ∧ d' :: post' = d :: post := List.append_inj (q1.symm.trans hp) hlen
        rw [q2, this.1, (List.cons.inj this.2).1]
      rw [this]
      exact he
  · intro hall
    apply hnone
    intro a ha
    obtain ⟨pre, d, post, q1, _, q3, _⟩ := newest_behind.1 ha
    have := hall d (by rw [q1]; simp)
    omega

/-! ### Who is read -/

/-- **C103**  Once a document of an author has been passed on, and as long as no other author's control token is above any of theirs, only
their documents are passed on. -/
theorem C103_stays_in_control {α : Type} (hcfg : HCfg) (h : List (In α)) (pre post : List (NDoc α)) (b : NDoc α)
    (hp : passedOn hcfg h = pre ++ b :: post)
    (htop : ∀ x y : NDoc α, In.doc x ∈ h → In.doc y ∈ h → x.seqId ≠ b.seqId → y.seqId = b.seqId →
      ∀ s t, x.token = some s → y.token = some t → s ≤ t) :
    ∀ y ∈ post, y.seqId = b.seqId := by
  have hmem : ∀ d ∈ passedOn hcfg h, In.doc d ∈ h := fun d hd => passedOn_delivered hd
  have hn := (C35_switches_only_up hcfg h).1
  rw [hp] at hn hmem
  have hn' : Neighbours (fun a b : NDoc α => a.seqId = b.seqId ∨ ∃ s t, a.token = some s ∧ b.token = some t ∧ s < t) (b :: post) := by
    clear hmem hp
    induction pre with
    | nil => exact hn
    | cons x xs ih =>
      apply ih
      cases xs with
      | nil => exact hn.2
      | cons y ys => exact hn.2
  have hm' : ∀ d ∈ b :: post, In.doc d ∈ h := fun d hd => hmem d (List.mem_append_right _ hd)
  clear hn hmem hp
  have key : ∀ (l : List (NDoc α)) (c : NDoc α), c.seqId = b.seqId → (∀ d ∈ c :: l, In.doc d ∈ h) →
      Neighbours (fun a b : NDoc α => a.seqId = b.seqId ∨ ∃ s t, a.token = some s ∧ b.token = some t ∧ s < t) (c :: l) →
      ∀ y ∈ l, y.seqId = b.seqId := by
    intro l
    induction l with
    | nil => intro c _ _ _ y hy; cases hy
    | cons x xs ih =>
      intro c hc hd hne y hy
      have hx : x.seqId = b.seqId := by
        rcases hne.1 with h1 | ⟨s, t, h1, h2, h3⟩
        · rw [← h1]; exact hc
        · apply Classical.byContradiction
          intro hxb
          have := htop x c (hd x (by simp)) (hd c (by simp)) hxb hc t s h2 h1
          omega
      rcases List.mem_cons.1 hy with rfl | hy
      · exact hx
      · exact ih x hx (fun d hd' => hd d (List.mem_cons_of_mem _ hd')) hne.2 y hy
  exact key post b rfl hm' hn'

theorem last_begun {t : Int} : ∀ (l : List (NDoc Arriving)), (∃ d ∈ l, begins d ≤ t) →
    ∃ pre d post, l = pre ++ d :: post ∧ begins d ≤ t ∧ ∀ y ∈ post, t < begins y
  | [], ⟨_, h, _⟩ => by cases h
  | x :: l, h => by
    by_cases hl : ∃ d ∈ l, begins d ≤ t
    · obtain ⟨pre, d, post, h1, h2, h3⟩ := last_begun l hl
      exact ⟨x :: pre, d, post, by rw [h1]; rfl, h2, h3⟩
    · have hall : ∀ y ∈ l, t < begins y := fun y hy => Int.not_le.1 (fun hc => hl ⟨y, hy, hc⟩)
      obtain ⟨d, hd, hb⟩ := h
      rcases List.mem_cons.1 hd with rfl | hd
      · exact ⟨[], d, l, rfl, hb, hall⟩
      · have := hall d hd; omega

/-- **C103**  Taking over.  When no other author's control token is above any of this author's, then from the begin of their first document on nobody
else's text is read: at every media time in a segment made after that document was passed on, what is read of the converted documents is
the text of one of this author's documents, or nothing.  The conditions are those of `C103_played_partial`. -/
theorem C103_takeover_partial (hcfg : HCfg) (evs : List HEv) (cfg : Seq.Cfg) (passed : List (NDoc Arriving))
    (hpassed : passed = passedOn hcfg (inputs evs))
    (hclock : ∀ d ∈ passed, clockOf { d.toDoc with seqId := hcfg.outId } = some cfg)
    (hwt : ∀ d ∈ passed, Seq.WellTimed (timed d))
    (discard : Bool) (start len : Int) (hl : 0 < len) (hms : start % 1000 = 0 ∧ len % 1000 = 0)
    (m : Media) (hrd : m.rd.Accurate) (hz0 : 0 ≤ m.zero) (hzms : m.base = .clock → m.zero % 1000 = 0) (hz : m.base = .clock → m.zero ≤ start)
    (fin : Int) (hfin : fin = start + ticksAfterFirst (behind hcfg {} evs) * len) (htop : fin < 100 * 3600000000)
    (hdocs : ∀ d ∈ passed, (asHeld d).Sound (timed d) fin ∧ lined true d.content.source.root = true ∧ flat d.content.source.root = true ∧
      d.content.source.base = m.base)
    (run : List HEv → Timed RState (List (Option (Node Att))) × List (RSeg (Option SDoc)))
    (hrun : run = fun es => runTR (extract (nthSource passed) discard) (toEncoder m) len ⟨{ lastEnd := start }, [], true⟩ (behind hcfg {} es))
    (author : String)
    (hauthor : ∀ x y : NDoc Arriving, In.doc x ∈ inputs evs → In.doc y ∈ inputs evs → x.seqId ≠ author → y.seqId = author →
      ∀ s t, x.token = some s → y.token = some t → s ≤ t)
    (u : Int) (hu : 0 ≤ u) (hcov : start ≤ u + m.shift ∧ u + m.shift < fin) :
    ∃ k st, evs[k]? = some .tick ∧ st = (run (evs.take k)).1.node ∧ st.lastEnd ≤ u + m.shift ∧ u + m.shift < st.lastEnd + len ∧
      ∀ b ∈ passedOn hcfg (inputs (evs.take k)), b.seqId = author → begins b ≤ u + m.shift →
        readOf (run evs).1.down u = [] ∨
        ∃ d, In.doc d ∈ inputs (evs.take k) ∧ d.seqId = author ∧ readOf (run evs).1.down u = linesIn (asHeld d) (u + m.shift) := by
  obtain ⟨_, _, h3⟩ := C103_played_partial hcfg evs cfg passed hpassed hclock hwt discard start len hl hms m hrd hz0 hzms hz fin hfin htop hdocs
    run hrun
  obtain ⟨k, st, h4, h5, h6, h7, h8, _⟩ := (h3 u hu).1 hcov
  refine ⟨k, st, h4, h5, h6, h7, ?_⟩
  intro b hb hba hbt
  obtain ⟨pre, d, post, g1, g2, g3⟩ := last_begun _ ⟨b, hb, hbt⟩
  have hread := h8 pre d post g1 g2 g3
  obtain ⟨rest, hrest⟩ := inputs_take evs k
  have hda : d.seqId = author := by
    obtain ⟨p1, p2, hsplit⟩ := List.append_of_mem hb
    have hstay := C103_stays_in_control hcfg (inputs (evs.take k)) p1 p2 b hsplit (by
      intro x y hx hy hxb hyb
      exact hauthor x y (by rw [hrest]; exact List.mem_append_left _ hx) (by rw [hrest]; exact List.mem_append_left _ hy)
        (by rw [← hba]; exact hxb) (by rw [hyb]; exact hba))
    have hd : d = b ∨ d ∈ p2 := by
      have hb' : b ∈ pre ++ d :: post := g1 ▸ hb
      have heq : p1 ++ b :: p2 = pre ++ d :: post := hsplit.symm.trans g1
      by_cases hlen : pre.length < p1.length
      · exfalso
        have e : (p1 ++ b :: p2)[p1.length]? = some b := by
          rw [List.getElem?_append_right (Nat.le_refl _), Nat.sub_self]; rfl
        rw [heq, List.getElem?_append_right (by omega)] at e
        obtain ⟨i, hi⟩ : ∃ i, p1.length - pre.length = i + 1 := ⟨p1.length - pre.length - 1, by omega⟩
        rw [hi, List.getElem?_cons_succ] at e
        have := g3 b (List.mem_of_getElem? e)
        omega
      · have e : (pre ++ d :: post)[pre.length]? = some d := by
          rw [List.getElem?_append_right (Nat.le_refl _), Nat.sub_self]; rfl
        rw [← heq, List.getElem?_append_right (by omega)] at e
        have := List.mem_of_getElem? e
        simpa using this
    rcases hd with rfl | hd
    · exact hba
    · rw [hstay d hd]; exact hba
  by_cases he : ∀ e, ends d = some e → u + m.shift < e
  · rw [if_pos he] at hread
    exact .inr ⟨d, passedOn_delivered (by rw [g1]; simp), hda, hread⟩
  · rw [if_neg he] at hread
    exact .inl hread

/-! ### Example: two authors -/

/-- Document `n` of an author, from `b` to `e` seconds, with two lines. -/
def exAuthored (sid : String) (n : Nat) (tok : Nat) (b e : Nat) (one two : String) : NDoc Arriving :=
  { uid := n, seqId := sid, num := n, timeBase := "clock", clockMode := some "local", agid := some "g", cbegin := 0,
    cend := none, token := some tok, selected := none
    content := { now := 0, avail := some 0, source := { exSource (exTwoLines b e one two) with base := .clock } } }

/-- The first author's document, a segment, a message, the second author taking over with a higher token, another document of the first, which is not passed
on, and two more segments. -/
def exTakeover : List HEv :=
  [.tick, .deliver (.doc (exAuthored "a" 1 1 1 9 "a" "b")), .tick, .deliver (.msg ⟨"a", "hello"⟩),
   .deliver (.doc (exAuthored "b" 7 2 5 8 "c" "d")), .deliver (.doc (exAuthored "a" 2 1 6 9 "e" "f")), .tick, .tick]

def exGroup : HCfg := { agid := some "g", outId := "out" }

theorem exTakeover_passed : passedOn exGroup (inputs exTakeover) = [exAuthored "a" 1 1 1 9 "a" "b", exAuthored "b" 7 2 5 8 "c" "d"] := rfl

/-- The hypotheses of `C103_played_partial` and of `C103_takeover_partial`, for the author `b`, hold; what is read are the lines of the first
author and from 5 s on, media time zero being at half a second, those of the second. -/
example : (∀ d ∈ passedOn exGroup (inputs exTakeover), clockOf { d.toDoc with seqId := exGroup.outId } = some ⟨"out", "clock", some "local"⟩) ∧
    (∀ d ∈ passedOn exGroup (inputs exTakeover), Seq.WellTimed (timed d)) ∧ ticksAfterFirst (behind exGroup {} exTakeover) = 3 ∧
    (∀ d ∈ passedOn exGroup (inputs exTakeover), (asHeld d).Sound (timed d) 10000000 ∧ lined true d.content.source.root = true ∧
      flat d.content.source.root = true ∧ d.content.source.base = exHalf.base) ∧
    (∀ x y : NDoc Arriving, In.doc x ∈ inputs exTakeover → In.doc y ∈ inputs exTakeover → x.seqId ≠ "b" → y.seqId = "b" →
      ∀ s t, x.token = some s → y.token = some t → s ≤ t) ∧
    [499999, 500000, 4499999, 4500000, 7499999, 7500000].map (readOf
        (runTR (extract (nthSource (passedOn exGroup (inputs exTakeover))) true) (toEncoder exHalf) 3000000 ⟨{ lastEnd := 1000000 }, [], true⟩
          (behind exGroup {} exTakeover)).1.down) =
      [[], [[.text ['a'], .br, .text ['b']]], [[.text ['a'], .br, .text ['b']]], [[.text ['c'], .br, .text ['d']]],
        [[.text ['c'], .br, .text ['d']]], []] := by
  refine ⟨?_, ?_, by decide +kernel, ?_, ?_, by decide +kernel⟩
  · rw [exTakeover_passed]
    intro d hd
    simp only [List.mem_cons, List.not_mem_nil, or_false] at hd
    rcases hd with rfl | rfl <;> rfl
  · rw [exTakeover_passed]
    intro d hd
    simp only [List.mem_cons, List.not_mem_nil, or_false] at hd
    rcases hd with rfl | rfl
    · have h1 : begins (exAuthored "a" 1 1 1 9 "a" "b") = 1000000 := by decide +kernel
      have h2 : ends (exAuthored "a" 1 1 1 9 "a" "b") = some 9000000 := by decide +kernel
      exact ⟨by simp only [timed, h1]; omega, by intro e he; simp only [timed, h1, h2, Option.some.injEq] at he ⊢; omega⟩
    · have h1 : begins (exAuthored "b" 7 2 5 8 "c" "d") = 5000000 := by decide +kernel
      have h2 : ends (exAuthored "b" 7 2 5 8 "c" "d") = some 8000000 := by decide +kernel
      exact ⟨by simp only [timed, h1]; omega, by intro e he; simp only [timed, h1, h2, Option.some.injEq] at he ⊢; omega⟩
  · rw [exTakeover_passed]
    have mk : ∀ {root : Node Att} {d : Seq.Doc}, (exSource root).Sound d 10000000 →
        ({ exSource root with base := .clock } : Source).Sound d 10000000 :=
      fun h => ⟨h.rd, h.avail, h.availMs, h.sane, h.shaped, h.wellTimed, h.inMs, .inr ⟨rfl, by omega⟩, h.refs, h.times⟩
    intro d hd
    simp only [List.mem_cons, List.not_mem_nil, or_false] at hd
    rcases hd with rfl | rfl
    · exact ⟨mk (exSource_sound (sane_of rfl (by decide) (by decide)) (by decide) (by decide) (by decide)
        ⟨_, _, validateDoc_eq _ _, by decide +kernel, by decide +kernel⟩ _), by decide, by decide, rfl⟩
    · exact ⟨mk (exSource_sound (sane_of rfl (by decide) (by decide)) (by decide) (by decide) (by decide)
        ⟨_, _, validateDoc_eq _ _, by decide +kernel, by decide +kernel⟩ _), by decide, by decide, rfl⟩
  · intro x y hx hy hxb hyb s t hs ht
    simp only [exTakeover, inputs, List.filterMap_cons, List.filterMap_nil, List.mem_cons, In.doc.injEq, List.not_mem_nil, or_false, reduceCtorEq,
      false_or] at hx hy
    rcases hx with rfl | rfl | rfl <;> rcases hy with rfl | rfl | rfl <;> simp_all [exAuthored]
    all_goals omega

end Verif.Convert
