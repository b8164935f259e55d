import Verif.Convert.DelayChainProps
import Verif.Node.RecordProps

/-! Several retiming delay nodes in a row, and behind them a resequencer with its timer and the EBU-TT-D encoder. -/
namespace Verif.Convert

open Verif.Doc Verif.Node
open Verif.Time (Reader exactReader exactReader_accurate)

/-- What the resequencer sees behind retiming nodes one behind the other (delay.py:33-79, carriage/direct.py:16-17); see `behindDelay`. The
documents are taken to come without metadata, which nothing behind the nodes looks at. -/
def behindDelays (rd : Reader) (ns : List (Record.RNode × TState)) : List DEv → List REv
  | [] => []
  | .tick :: es => .tick :: behindDelays rd ns es
  | .msg m :: es =>
    match Record.passOn rd (fun _ => 0) ns (.msg m) with
    | (ns', some _) => .deliver 0 none :: behindDelays rd ns' es
    | (ns', none) => behindDelays rd ns' es
  | .deliver x :: es =>
    match Record.passOn rd (fun _ => 0) ns (.doc ⟨x.doc, none⟩) with
    | (ns', some (.doc o)) => .deliver x.avail (some (sentAs x o.doc)) :: behindDelays rd ns' es
    | (ns', some (.msg _)) => .deliver 0 none :: behindDelays rd ns' es
    | (ns', none) => behindDelays rd ns' es

/-! ### As one node -/

/-- What is delivered to the nodes. -/
def toNodes : List DEv → List (Record.RIn × (Record.RNode → Int))
  | [] => []
  | .tick :: es => toNodes es
  | .msg m :: es => (.msg m, fun _ => 0) :: toNodes es
  | .deliver x :: es => (.doc ⟨x.doc, none⟩, fun _ => 0) :: toNodes es

/-- What comes to the resequencer for one delivery of a message, and of a document. -/
def forMsg : Record.Seen1 → List REv
  | .nothing => []
  | _ => [.deliver 0 none]
def forDoc (x : Carried) : Record.Seen1 → List REv
  | .doc sid num base body => [.deliver x.avail (some (sentAs x ⟨sid, num, base, body⟩))]
  | .msg _ => [.deliver 0 none]
  | .nothing => []

/-- The resequencer's events from what comes out for each delivery. -/
def relayed : List DEv → List Record.Seen1 → List REv
  | [], _ => []
  | .tick :: es, os => .tick :: relayed es os
  | .msg _ :: es, o :: os => forMsg o ++ relayed es os
  | .deliver x :: es, o :: os => forDoc x o ++ relayed es os
  | _ :: _, [] => []

/-- What comes out of one node. -/
def seenOf : TRes → Record.Seen1
  | .emitted (.doc o) => .doc o.sid o.num o.base o.body
  | .emitted (.msg m) => .msg m
  | _ => .nothing

theorem behindDelays_relayed (rd : Reader) : ∀ (evs : List DEv) (ns : List (Record.RNode × TState)),
    behindDelays rd ns evs = relayed evs ((Record.passAll rd ns (toNodes evs)).map Record.seenBehind)
  | [], _ => rfl
  | .tick :: es, ns => by rw [behindDelays, behindDelays_relayed rd es]; rfl
  | .msg m :: es, ns => by
    rw [behindDelays, toNodes, Record.passAll, List.map_cons, relayed]
    simp only [Record.passOn_msg]
    rw [behindDelays_relayed rd es]; rfl
  | .deliver x :: es, ns => by
    rw [behindDelays, toNodes, Record.passAll, List.map_cons, relayed]
    split
    · rename_i ns' o h
      simp only [h]
      rw [behindDelays_relayed rd es]; rfl
    · rename_i ns' m h
      simp only [h]
      rw [behindDelays_relayed rd es]; rfl
    · rename_i ns' h
      simp only [h]
      rw [behindDelays_relayed rd es]; rfl

theorem behindDelay_relayed (rd : Reader) (out : String) (d : Int) : ∀ (evs : List DEv) (s : TState),
    behindDelay rd out d s evs =
      relayed evs ((runT rd out d s ((toNodes evs).map (fun e => Record.plain e.1))).2.map seenOf)
  | [], _ => rfl
  | .tick :: es, s => by rw [behindDelay, behindDelay_relayed rd out d es]; rfl
  | .msg m :: es, s => by
    rw [behindDelay, toNodes, List.map_cons, runT, List.map_cons, relayed]
    simp only [retimeNode, Record.plain_msg]
    rw [behindDelay_relayed rd out d es]; rfl
  | .deliver x :: es, s => by
    rw [behindDelay, toNodes, List.map_cons, runT, List.map_cons, relayed]
    simp only [Record.plain_doc]
    generalize retimeNode rd out d s (.doc x.doc) = q
    obtain ⟨s', r⟩ := q
    cases r with
    | emitted o =>
      cases o with
      | doc o => simp only [behindDelay_relayed rd out d es]; rfl
      | msg m => simp only [behindDelay_relayed rd out d es]; rfl
    | duplicate => simp only [behindDelay_relayed rd out d es]; rfl
    | otherSequence => simp only [behindDelay_relayed rd out d es]; rfl
    | failed => simp only [behindDelay_relayed rd out d es]; rfl

/-- The identifier a node gives makes no difference but to the documents it emits, if none comes to it with that identifier. -/
theorem runT_renamed (rd : Reader) (o1 o2 : String) (d : Int) : ∀ (is : List TIn) (s : TState),
    (∀ x, TIn.doc x ∈ is → x.sid ≠ o1 ∧ x.sid ≠ o2) →
    (runT rd o1 d s is).2.map (Record.seenAs o2) = (runT rd o2 d s is).2.map seenOf
  | [], _, _ => rfl
  | .msg m :: is, s, h => by
    have ih := runT_renamed rd o1 o2 d is s (fun x hx => h x (List.mem_cons_of_mem _ hx))
    rw [runT, runT]
    simp only [retimeNode, List.map_cons, ih]
    rfl
  | .doc x :: is, s, h => by
    obtain ⟨h1, h2⟩ := h x List.mem_cons_self
    have ih := fun s => runT_renamed rd o1 o2 d is s (fun y hy => h y (List.mem_cons_of_mem _ hy))
    rw [runT, runT]
    simp only [retimeNode, if_neg h1, if_neg h2]
    split
    · split
      · simp only [List.map_cons, ih]; rfl
      · cases retimeDoc x.base rd d x.body with
        | none => simp only [List.map_cons, ih]; rfl
        | some body => simp only [List.map_cons, ih]; rfl
    · simp only [List.map_cons, ih]; rfl

theorem toNodes_docs {d : Record.RDoc} {now : Record.RNode → Int} : ∀ {evs : List DEv}, (Record.RIn.doc d, now) ∈ toNodes evs →
    ∃ x ∈ carried evs, d.doc = x.doc
  | [], h => by cases h
  | .tick :: es, h => by
    obtain ⟨x, hx, he⟩ := toNodes_docs (evs := es) h
    exact ⟨x, hx, he⟩
  | .msg m :: es, h => by
    rw [toNodes, List.mem_cons] at h
    rcases h with h | h
    · simp at h
    · obtain ⟨x, hx, he⟩ := toNodes_docs h
      exact ⟨x, hx, he⟩
  | .deliver y :: es, h => by
    rw [toNodes, List.mem_cons] at h
    rcases h with h | h
    · simp only [Prod.mk.injEq, Record.RIn.doc.injEq] at h
      exact ⟨y, List.mem_cons_self, by rw [h.1]⟩
    · obtain ⟨x, hx, he⟩ := toNodes_docs h
      exact ⟨x, List.mem_cons_of_mem _ hx, he⟩

/-- Behind nodes in a row the resequencer sees what it sees behind one of them with the sum of the delays. -/
theorem behindDelays_one (rd : Reader) (hrd : rd.Accurate) (c0 : Record.RNode) (cs : List Record.RNode) (hw : Record.Whole (c0 :: cs))
    (hch : Record.chained c0.out cs) (evs : List DEv)
    (hne : ∀ x ∈ carried evs, x.doc.sid ≠ c0.out ∧ x.doc.sid ≠ Record.lastOut c0.out cs)
    (hf : ∀ x ∈ carried evs, Record.Fits x.doc.base (Record.sumOf (c0 :: cs)) x.doc.body) :
    behindDelays rd (Record.fresh (c0 :: cs)) evs = behindDelay rd (Record.lastOut c0.out cs) (Record.sumOf (c0 :: cs)) {} evs := by
  rw [behindDelays_relayed, behindDelay_relayed, Record.C112_chain_is_one_node_partial rd hrd c0 cs hw hch, runT_renamed]
  · intro x hx
    obtain ⟨e, he, hex⟩ := List.mem_map.1 hx
    obtain ⟨i, now⟩ := e
    cases i with
    | msg m => cases hex
    | doc d =>
      obtain ⟨y, hy, hyd⟩ := toNodes_docs he
      simp only [Record.plain, TIn.doc.injEq] at hex
      rw [← hex, hyd]
      exact hne y hy
  · intro d now h
    obtain ⟨y, hy, hyd⟩ := toNodes_docs h
    rw [hyd]
    exact hf y hy

/-- **C112**  Viewers behind retiming nodes in a row: two chains with a resequencer, its timer and the EBU-TT-D encoder side by side, one behind the
retiming nodes and one in front of them, in which everything happens the sum of the delays earlier. Neither timer stops, both put out equally many
documents, and whatever is read of those in front at a media time is read of those behind the sum of the delays later; before that nothing is
read of them. Missing: what C104_delayed_partial is missing. -/
theorem C112_viewers_partial (rd : Reader) (hrd : rd.Accurate) (c0 : Record.RNode) (cs : List Record.RNode) (hw : Record.Whole (c0 :: cs))
    (hch : Record.chained c0.out cs) (d : Int) (hsum : d = Record.sumOf (c0 :: cs)) (hd : 0 < d) (hd1 : d < 360000000000)
    (sid : String) (hne : sid ≠ c0.out ∧ sid ≠ Record.lastOut c0.out cs) (cfg : Seq.Cfg) (g : Option String) (evs : List DEv)
    (xs : List Carried) (hxs : xs = carried evs)
    (m : Media) (h : Course d sid cfg g m.base xs) (hcop : ∀ x ∈ xs, Copies (x.late rd d) ∧ Copies (x.early d))
    (discard : Bool) (start len : Int) (hl : 0 < len) (hms : start % 1000 = 0 ∧ len % 1000 = 0) (hmrd : m.rd.Accurate) (hz0 : 0 ≤ m.zero)
    (hzms : m.base = .clock → m.zero % 1000 = 0) (hz : m.shift ≤ start) (htop : start + d + timerCalls evs * len < 100 * 3600000000)
    (near far : Timed RState (List (Option (Node Att))) × List (RSeg (Option SDoc)))
    (hnear : near = runTR (extract (sourceOf (fun x => x.early d) xs) discard) (toEncoder m) len ⟨{ lastEnd := start }, [], true⟩ (without d evs))
    (hfar : far = runTR (extract (sourceOf (fun x => x.late rd d) xs) discard) (toEncoder m) len ⟨{ lastEnd := start + d }, [], true⟩
      (behindDelays rd (Record.fresh (c0 :: cs)) evs)) :
    near.1.on = true ∧ far.1.on = true ∧ far.1.down.length = near.1.down.length ∧
    (∀ u, 0 ≤ u → readOf far.1.down (u + d) = readOf near.1.down u) ∧
    ∀ u, 0 ≤ u → u < d → readOf far.1.down u = [] := by
  have hdm : d % 1000 = 0 := by rw [hsum]; exact (Record.sumOf_whole hw).2
  rw [behindDelays_one rd hrd c0 cs hw hch evs (by rw [← hxs]; intro x hx; rw [h.sid x hx]; exact hne), ← hsum] at hfar
  · exact C104_delayed_partial rd hrd d hd hdm hd1 sid _ hne.2 cfg g evs xs hxs m h hcop discard start len hl hms hmrd hz0 hzms hz htop near far
      hnear hfar
  · rw [← hxs, ← hsum]
    intro x hx
    obtain ⟨_, a, kids, hb, _, _, hm, _⟩ := (h.fit x hx).steady
    exact .inr ⟨hd1, Record.fits_movable _ _ hm⟩

/-- **C112**  What is read behind retiming nodes in a row, a resequencer and the EBU-TT-D encoder: at every media time the converted documents
cover, what somebody reads the sum of the delays earlier of the last document that had begun then, of those that had come before the segment
was made, until it ends.  See `C104_read_later_partial`, also for what is missing. -/
theorem C112_read_later_partial (rd : Reader) (hrd : rd.Accurate) (c0 : Record.RNode) (cs : List Record.RNode) (hw : Record.Whole (c0 :: cs))
    (hch : Record.chained c0.out cs) (d : Int) (hsum : d = Record.sumOf (c0 :: cs)) (hd : 0 < d) (hd1 : d < 360000000000)
    (sid : String) (hne : sid ≠ c0.out ∧ sid ≠ Record.lastOut c0.out cs) (cfg : Seq.Cfg) (g : Option String) (evs : List DEv)
    (xs : List Carried) (hxs : xs = carried evs)
    (m : Media) (h : Course d sid cfg g m.base xs) (hcop : ∀ x ∈ xs, Copies (x.late rd d))
    (discard : Bool) (start len : Int) (hl : 0 < len) (hms : start % 1000 = 0 ∧ len % 1000 = 0) (hmrd : m.rd.Accurate) (hz0 : 0 ≤ m.zero)
    (hzms : m.base = .clock → m.zero % 1000 = 0) (hz : m.base = .clock → m.zero ≤ start)
    (fin : Int) (hfin : fin = start + timerCalls evs * len) (htop : fin < 100 * 3600000000)
    (run : Timed RState (List (Option (Node Att))) × List (RSeg (Option SDoc)))
    (hrun : run = runTR (extract (sourceOf (fun x => x.late rd d) xs) discard) (toEncoder m) len ⟨{ lastEnd := start }, [], true⟩
      (behindDelays rd (Record.fresh (c0 :: cs)) evs)) :
    run.1.on = true ∧ run.1.down.length = timerCalls evs ∧
    ∀ u t, 0 ≤ u → t = u + m.shift →
      (start ≤ t ∧ t < fin →
        ∃ k, evs[k]? = some .tick ∧ carried (evs.take k) ≠ [] ∧ start + timerCalls (evs.take k) * len ≤ t ∧
          t < start + timerCalls (evs.take k) * len + len ∧
          (∀ (pre : List Carried) (x : Carried) (post : List Carried), carried (evs.take k) = pre ++ x :: post → x.begins d ≤ t - d →
            (∀ y ∈ post, t - d < y.begins d) →
            readOf run.1.down u = if ∀ e, x.ends d = some e → t - d < e then linesIn (x.early d) (t - d) else []) ∧
          ((∀ x ∈ carried (evs.take k), t - d < x.begins d) → readOf run.1.down u = [])) ∧
      (¬(start ≤ t ∧ t < fin) → readOf run.1.down u = []) := by
  have hdm : d % 1000 = 0 := by rw [hsum]; exact (Record.sumOf_whole hw).2
  rw [behindDelays_one rd hrd c0 cs hw hch evs (by rw [← hxs]; intro x hx; rw [h.sid x hx]; exact hne), ← hsum] at hrun
  · rw [hrun]
    exact C104_read_later_partial rd hrd d hd hdm hd1 sid _ hne.2 cfg g evs xs hxs m h hcop discard start len hl hms hmrd hz0 hzms hz fin hfin
      htop _ rfl
  · rw [← hxs, ← hsum]
    intro x hx
    obtain ⟨_, a, kids, hb, _, _, hm, _⟩ := (h.fit x hx).steady
    exact .inr ⟨hd1, Record.fits_movable _ _ hm⟩

/-- Two nodes that delay by half a second and by one and a half. -/
def exTwo : List Record.RNode := [⟨"n1", "b", 500000⟩, ⟨"n2", "c", 1500000⟩]

/-- Non-vacuity: the documents of the example of C104 behind two nodes. -/
example : (∀ u, 0 ≤ u → readOf (runTR (extract (sourceOf (fun x => x.late exactReader 2000000) (carried exDelayed)) true) (toEncoder exHalf) 3000000
          ⟨{ lastEnd := 1000000 + 2000000 }, [], true⟩
          (behindDelays exactReader (Record.fresh [⟨"n1", "b", 500000⟩, ⟨"n2", "c", 1500000⟩]) exDelayed)).1.down (u + 2000000) =
        readOf (runTR (extract (sourceOf (fun x => x.early 2000000) (carried exDelayed)) true) (toEncoder exHalf) 3000000
          ⟨{ lastEnd := 1000000 }, [], true⟩ (without 2000000 exDelayed)).1.down u) ∧
    [2499999, 2500000, 6499999, 6500000, 9499999, 9500000].map (readOf
        (runTR (extract (sourceOf (fun x => x.late exactReader 2000000) (carried exDelayed)) true) (toEncoder exHalf) 3000000
          ⟨{ lastEnd := 3000000 }, [], true⟩ (behindDelays exactReader (Record.fresh exTwo) exDelayed)).1.down) =
      [[], [[.text ['a'], .br, .text ['b']]], [[.text ['a'], .br, .text ['b']]], [[.text ['c'], .br, .text ['d']]],
        [[.text ['c'], .br, .text ['d']]], []] := by
  have hcop : ∀ x ∈ carried exDelayed, Copies (x.late exactReader 2000000) ∧ Copies (x.early 2000000) := by
    have hc : carried exDelayed = [exCarried 1 1 9 "a" "b", exCarried 4 5 8 "c" "d"] := rfl
    rw [hc]
    intro x hx
    simp only [List.mem_cons, List.not_mem_nil, or_false] at hx
    rcases hx with rfl | rfl <;> exact ⟨exCopies _ rfl _ _, exCopies _ rfl _ _⟩
  have hw : Record.Whole [⟨"n1", "b", 500000⟩, ⟨"n2", "c", 1500000⟩] := by
    intro c hc
    simp only [List.mem_cons, List.not_mem_nil, or_false] at hc
    rcases hc with rfl | rfl <;> decide
  constructor
  · have := C112_viewers_partial exactReader exactReader_accurate ⟨"n1", "b", 500000⟩ [⟨"n2", "c", 1500000⟩] hw ⟨by decide, trivial⟩ 2000000
      (by decide) (by decide) (by decide) "a" (by decide) ⟨"a", "clock", some "local"⟩ none exDelayed _ rfl exHalf exCourse hcop true 1000000 3000000
      (by decide) (by decide) exactReader_accurate (by decide) (fun _ => by decide) (by decide) (by decide +kernel) _ _ rfl rfl
    exact this.2.2.2.1
  · decide +kernel

/-- The hypotheses of `C112_read_later_partial` for the same nodes and documents, with segments from 3 s on. -/
example : exTwo = [⟨"n1", "b", 500000⟩, ⟨"n2", "c", 1500000⟩] ∧ Record.sumOf exTwo = 2000000 ∧ Record.chained "b" [⟨"n2", "c", 1500000⟩] ∧
    Course 2000000 "a" ⟨"a", "clock", some "local"⟩ none exHalf.base (carried exDelayed) ∧
    (∀ x ∈ carried exDelayed, Copies (x.late exactReader 2000000)) ∧ 3000000 + timerCalls exDelayed * 3000000 < 100 * 3600000000 := by
  refine ⟨rfl, by decide, ⟨by decide, trivial⟩, exCourse, ?_, by decide +kernel⟩
  have hc : carried exDelayed = [exCarried 1 1 9 "a" "b", exCarried 4 5 8 "c" "d"] := rfl
  rw [hc]
  intro x hx
  simp only [List.mem_cons, List.not_mem_nil, or_false] at hx
  rcases hx with rfl | rfl <;> exact exCopies _ rfl _ _

end Verif.Convert
