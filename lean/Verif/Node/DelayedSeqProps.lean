import Verif.Node.DelayedSeq

/-
C89: a delayed sequence shows what the sequence shows, later by the delay.
-/
namespace Verif.Node

open Verif.Doc (Node Att Comp Lab)
open Verif.Time (TimeBase Reader)
open Verif

/-- C89, the sequence.  Take any documents with sensible times, in any order and of any contents, and move all of them by `δ`
into a sequence of another name: every call ends the same way, whatever way that is, and at every time that is active what was active
`δ` earlier. -/
theorem C89_sequence_moves (f : String → String) (hf : ∀ a b, f a = f b → a = b) (δ : Int) (hδ : 0 ≤ δ) (cfg : Seq.Cfg)
    (agid : Option String) (ds : List Seq.Doc) (hds : ∀ x ∈ ds, Seq.WellTimed x) :
    (Seq.run (Seq.State.init { cfg with seqId := f cfg.seqId } agid) (ds.map (Seq.Doc.mv f δ))).2 =
      (Seq.run (Seq.State.init cfg agid) ds).2 ∧
    ∀ a t, Seq.ActiveAt (Seq.run (Seq.State.init { cfg with seqId := f cfg.seqId } agid) (ds.map (Seq.Doc.mv f δ))).1
        (a.mv f δ) (t + δ) ↔ Seq.ActiveAt (Seq.run (Seq.State.init cfg agid) ds).1 a t := by
  have h : Seq.run (Seq.State.init { cfg with seqId := f cfg.seqId } agid) (ds.map (Seq.Doc.mv f δ)) = _ :=
    Seq.run_mv (f := f) (δ := δ) hf ds (Seq.State.init cfg agid)
  rw [h]
  refine ⟨rfl, fun a t => Seq.active_mv hf _ a t ?_⟩
  intro e he hk
  have := Seq.ends_positive cfg agid ds hds e he hk
  omega

/-- C89, with the node.  Documents of one sequence go through a retiming delay node to a consumer that gets them at `avail`, in any order;
another consumer in front of the node got each of them the delay earlier.  The node emits all of them; every document is
taken, refused or discarded alike by both consumers; and at every time the consumer behind the node has that document active which the other
one had active the delay earlier, and it shows the same.
Partial: assumes of the documents what C37 does (`Steady`), and sensible times. -/
theorem C89_behind_the_node_partial (rd : Reader) (hrd : rd.Accurate) (d : Int) (hd : 0 < d) (hdm : d % 1000 = 0)
    (hd1 : d < 360000000000) (sid out : String) (hne : sid ≠ out) (cfg : Seq.Cfg) (hcfg : cfg.seqId = sid) (agid : Option String)
    (xs : List Delivery) (hsid : ∀ x ∈ xs, x.doc.sid = sid) (hnum : (xs.map (fun x => x.doc.num)).Nodup)
    (hst : ∀ x ∈ xs, Steady d x) (hwt : ∀ x ∈ xs, Seq.WellTimed (x.near d)) :
    ∃ outs : List TDoc, emittedDocs (runT rd out d {} (xs.map (fun x => .doc x.doc))).2 = outs ∧
      outs.length = xs.length ∧
      (Seq.run (Seq.State.init { cfg with seqId := out } agid) ((xs.zip outs).map (fun p => heldAs p.1 p.2 p.1.avail))).2 =
        (Seq.run (Seq.State.init cfg agid) (xs.map (Delivery.near d))).2 ∧
      ∀ p ∈ xs.zip outs, ∀ t,
        (Seq.ActiveAt (Seq.run (Seq.State.init { cfg with seqId := out } agid) ((xs.zip outs).map (fun p => heldAs p.1 p.2 p.1.avail))).1
            (heldAs p.1 p.2 p.1.avail) (t + d) ↔
          Seq.ActiveAt (Seq.run (Seq.State.init cfg agid) (xs.map (Delivery.near d))).1 (p.1.near d) t) ∧
        showsAt p.2 p.1.avail (t + d) = showsAt p.1.doc (p.1.before d) t := by
  have one : ∀ x ∈ xs, (retimeDoc x.doc.base rd d x.doc.body).isSome = true ∧
      heldAs x (retimed rd out d x) x.avail = (x.near d).mv (swap sid out) d ∧
      ∀ t, showsAt (retimed rd out d x) x.avail (t + d) = showsAt x.doc (x.before d) t := by
    intro x hx
    obtain ⟨body, h1, h2, h3⟩ := held_moved rd hrd d hd hdm hd1 x (hst x hx) sid out (hsid x hx)
    have he : retimed rd out d x = { x.doc with sid := out, body := body } := by simp only [retimed, h1, Option.getD_some]
    rw [he]
    exact ⟨by rw [h1]; rfl, h2, h3⟩
  have hemit := node_emits_all rd out sid hne d xs {} rfl hsid hnum (by intro x _; simp [Seen.get]) (fun x hx => (one x hx).1)
  refine ⟨xs.map (retimed rd out d), hemit, by simp, ?_⟩
  have hzip : xs.zip (xs.map (retimed rd out d)) = xs.map (fun x => (x, retimed rd out d x)) := by
    generalize retimed rd out d = g
    clear hemit one hst hwt hnum hsid
    induction xs with
    | nil => rfl
    | cons x xs ih => simp [ih]
  have hmap : (xs.zip (xs.map (retimed rd out d))).map (fun p => heldAs p.1 p.2 p.1.avail) =
      (xs.map (Delivery.near d)).map (Seq.Doc.mv (swap sid out) d) := by
    rw [hzip, List.map_map, List.map_map]
    apply List.map_congr_left
    intro x hx
    exact (one x hx).2.1
  have hc : ({ cfg with seqId := out } : Seq.Cfg) = { cfg with seqId := swap sid out cfg.seqId } := by
    rw [hcfg, swap, if_pos rfl]
  have key := C89_sequence_moves (swap sid out) (swap_inj sid out) d (by omega) cfg agid (xs.map (Delivery.near d))
    (by intro y hy; obtain ⟨x, hx, he⟩ := List.mem_map.1 hy; rw [← he]; exact hwt x hx)
  rw [hmap, hc]
  refine ⟨key.1, ?_⟩
  intro p hp t
  rw [hzip] at hp
  obtain ⟨x, hx, he⟩ := List.mem_map.1 hp
  rw [← he]
  refine ⟨?_, (one x hx).2.2 t⟩
  simp only
  rw [(one x hx).2.1]
  exact key.2 (x.near d) t

/-- Two documents, the second one overrides the first: a body without a begin holding a p of 2 s to 5 s in a div from 1 s on, and one with
a p from 4 s on, got at 2 s and 3 s. -/
def exSecond : Node Att :=
  .elem { kind := .body } [.elem { kind := .div } [.elem { kind := .p, beg := Doc.sec 4 } [.text "b".toList]]]
def exDeliveries : List Delivery :=
  [⟨⟨"s", 1, .media, exTimed⟩, 0, none, none, 2000000⟩, ⟨⟨"s", 2, .media, exSecond⟩, 1, none, none, 3000000⟩]

theorem exSteady : ∀ x ∈ exDeliveries, Steady 3000000 x := by
  intro x hx
  simp only [exDeliveries, List.mem_cons, List.not_mem_nil, or_false] at hx
  rcases hx with h | h
  · rw [h]; exact ⟨by decide, _, _, rfl, rfl, by decide, by decide +kernel, .inl rfl⟩
  · rw [h]; exact ⟨by decide, _, _, rfl, rfl, by decide, by decide +kernel, .inl rfl⟩

theorem exNear : exDeliveries.map (fun x => ((x.near 3000000).cbegin, (x.near 3000000).cend)) =
    [(1000000, some 6000000), (4000000, none)] := by decide +kernel

example : ∀ x ∈ exDeliveries, Seq.WellTimed (x.near 3000000) := by
  have h := exNear
  simp only [exDeliveries, List.map_cons, List.map_nil, List.cons.injEq, and_true, Prod.mk.injEq] at h
  obtain ⟨⟨h1, h2⟩, h3, h4⟩ := h
  intro x hx
  simp only [exDeliveries, List.mem_cons, List.not_mem_nil, or_false] at hx
  rcases hx with he | he
  · rw [he]
    refine ⟨by rw [h1]; decide, fun e h => ?_⟩
    rw [h2] at h
    injection h with h
    rw [h1, ← h]; decide
  · rw [he]
    refine ⟨by rw [h3]; decide, fun e h => ?_⟩
    rw [h4] at h
    exact absurd h (by simp)

example : (exDeliveries.map (fun x => x.doc.num)).Nodup ∧ ∀ x ∈ exDeliveries, x.doc.sid = "s" := by decide

/-- C89 is false if both consumers get a document at the same time: a document without times begins when it is got, behind the node
as well, if that is after the delay counted from zero. -/
theorem C89_false_same_arrival :
    ∃ (x : Delivery) (body : Node Att), x.avail = 100000000 ∧ retimeDoc x.doc.base Time.exactReader 20000000 x.doc.body = some body ∧
      (heldAs x x.doc x.avail).cbegin = 100000000 ∧ (heldAs x { x.doc with body := body } x.avail).cbegin = 100000000 := by
  have h : (retimeDoc .media Time.exactReader 20000000
      (.elem { kind := .body } [.elem { kind := .div } [.elem { kind := .p } [.text ['a']]]])).isSome = true := by decide +kernel
  obtain ⟨body, hb⟩ := Option.isSome_iff_exists.1 h
  refine ⟨⟨⟨"s", 1, .media, .elem { kind := .body } [.elem { kind := .div } [.elem { kind := .p } [.text ['a']]]]⟩, 0, none, none, 100000000⟩,
    body, rfl, hb, by decide +kernel, ?_⟩
  have h2 : (retimeDoc .media Time.exactReader 20000000
      (.elem { kind := .body } [.elem { kind := .div } [.elem { kind := .p } [.text ['a']]]])).map
      (fun b => (heldAs ⟨⟨"s", 1, .media, .elem { kind := .body } []⟩, 0, none, none, 100000000⟩ ⟨"s", 1, .media, b⟩ 100000000).cbegin) = some 100000000 := by
    decide +kernel
  rw [hb] at h2
  simp only [Option.map_some, Option.some.injEq] at h2
  exact h2

end Verif.Node
