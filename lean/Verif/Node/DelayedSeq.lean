import Verif.Seq.Shift
import Verif.Node.RetimeProps
import Verif.Node.SeenProps

/-
C89: a sequence behind a retiming delay node (`/repo/ebu_tt_live/node/delay.py:33-79`) shows at every time what the sequence in front of
it shows a delay earlier.  Composition of the sequence (`Verif/Seq`), the timing of documents (`Verif/Doc`) and the node (`Verif/Node/Retime`).
-/
namespace Verif.Node

open Verif.Doc (Node Att Comp Lab)
open Verif.Time (TimeBase Reader)
open Verif

/-! ### Definitions -/

/-- `ttp:timeBase` as it is written. -/
def baseText : TimeBase → String
  | .clock => "clock"
  | .media => "media"
  | .smpte => "smpte"

/-- A document on its way to a consumer: the document, the rest of what a sequence looks at, and when the consumer behind the
delay node gets it. -/
structure Delivery where
  doc : TDoc
  uid : Nat
  clockMode : Option String
  agid : Option String
  avail : Int

/-- The document as a consumer holds that got it at `avail` (documents/ebutt3.py:484-514: its times are those of its body). -/
def heldAs (x : Delivery) (doc : TDoc) (avail : Int) : Seq.Doc :=
  let c : Comp := match Doc.validateDoc avail doc.body with
    | .ok (.elem lab _) => lab.comp
    | _ => ⟨0, none⟩
  { uid := x.uid, seqId := doc.sid, num := doc.num, timeBase := baseText doc.base, clockMode := x.clockMode, agid := x.agid,
    cbegin := c.b, cend := c.e }

/-- What a document shows that was got at `avail`. -/
def showsAt (doc : TDoc) (avail t : Int) : List (List Doc.Item) :=
  match Doc.validateDoc avail doc.body with
  | .ok v => Doc.shownAt v t
  | .error _ => []

/-- When a consumer in front of the node got it: a delay earlier, but not before time zero (simplification: availability times are not
negative in the code, node/base.py and clocks.py). -/
def Delivery.before (d : Int) (x : Delivery) : Int := max (x.avail - d) 0

/-- The documents in front of the node. -/
def Delivery.near (d : Int) (x : Delivery) : Seq.Doc := heldAs x x.doc (x.before d)

/-- What is assumed of a document, as for C37: its body has the structure of the schema, its times can be moved, and if the body has a
duration it has a begin or is an untimed document that is got early enough. -/
def Steady (d : Int) (x : Delivery) : Prop :=
  x.doc.base ≠ .smpte ∧ ∃ a kids, x.doc.body = .elem a kids ∧ a.kind = .body ∧ Doc.shaped x.doc.body = true ∧
    movableIn d x.doc.body = true ∧
    (Doc.eff a.dur = none ∨ a.beg.isSome = true ∨ (untimedLeaf x.doc.body = true ∧ x.avail ≤ d))

/-! ### One document -/

/-- Two names exchanged. -/
def swap (a b : String) (s : String) : String := if s = a then b else if s = b then a else s

theorem swap_inj (a b : String) : ∀ x y, swap a b x = swap a b y → x = y := by
  intro x y h
  unfold swap at h
  split at h
  · split at h
    · rename_i h1 h2; rw [h1, h2]
    · split at h
      · rename_i h1 h2 h3; rw [h1, ← h, h3]
      · rename_i h1 h2 h3; exact absurd h.symm h3
  · split at h
    · split at h
      · rename_i h1 h2 h3; rw [h2, h3, h]
      · split at h
        · rename_i h1 h2 h3 h4; rw [h2, h4]
        · rename_i h1 h2 h3 h4; exact absurd h.symm h3
    · split at h
      · rename_i h1 h2 h3; exact absurd h h2
      · split at h
        · rename_i h1 h2 h3 h4; exact absurd h h1
        · exact h

/-- Where the times of a body come from. -/
theorem heldAs_times {x : Delivery} {doc : TDoc} {avail : Int} {a : Att} {kids : List (Node Att)} (h : doc.body = .elem a kids) :
    ∃ lab ks, Doc.validateDoc avail doc.body = .ok (.elem lab ks) ∧ (heldAs x doc avail).cbegin = lab.comp.b ∧
      (heldAs x doc avail).cend = lab.comp.e := by
  refine ⟨_, _, by rw [Doc.validateDoc_eq, h, Doc.times], ?_, ?_⟩
  · simp only [heldAs, Doc.validateDoc_eq, h, Doc.times]
  · simp only [heldAs, Doc.validateDoc_eq, h, Doc.times]

theorem retimeDoc_elem {base : TimeBase} {rd : Reader} {d : Int} {a : Att} {kids : List (Node Att)} {r : Node Att}
    (h : retimeDoc base rd d (.elem a kids) = some r) : ∃ a' kids', r = .elem a' kids' := by
  unfold retimeDoc at h
  split at h
  · unfold retimeBody at h
    cases hb : a.beg with
    | some b => rw [hb] at h; simp at h
    | none =>
      rw [hb] at h
      simp only at h
      cases base with
      | smpte => simp only [Option.some.injEq] at h; exact ⟨_, _, h.symm⟩
      | clock =>
        simp only [Option.bind_eq_some_iff, Option.map_eq_some_iff] at h
        obtain ⟨_, _, _, _, _, _, h⟩ := h
        exact ⟨_, _, h.symm⟩
      | media =>
        simp only [Option.bind_eq_some_iff, Option.map_eq_some_iff] at h
        obtain ⟨_, _, _, _, _, _, h⟩ := h
        exact ⟨_, _, h.symm⟩
  · rw [retime] at h
    simp only [Option.bind_eq_some_iff] at h
    obtain ⟨_, _, h⟩ := h
    cases hb : a.beg with
    | some b =>
      rw [hb] at h
      simp only [Option.map_eq_some_iff] at h
      obtain ⟨_, _, h⟩ := h
      exact ⟨_, _, h.symm⟩
    | none =>
      rw [hb] at h
      simp only [Option.map_eq_some_iff] at h
      obtain ⟨_, _, h⟩ := h
      exact ⟨_, _, h.symm⟩

/-- One document: the retimed one is held with times moved by the delay, and shows the same a delay later. -/
theorem held_moved (rd : Reader) (hrd : rd.Accurate) (d : Int) (hd : 0 < d) (hdm : d % 1000 = 0) (hd1 : d < 360000000000)
    (x : Delivery) (hx : Steady d x) (sid out : String) (hsid : x.doc.sid = sid) :
    ∃ body, retimeDoc x.doc.base rd d x.doc.body = some body ∧
      heldAs x { x.doc with sid := out, body := body } x.avail = (x.near d).mv (swap sid out) d ∧
      ∀ t, showsAt { x.doc with sid := out, body := body } x.avail (t + d) = showsAt x.doc (x.before d) t := by
  obtain ⟨hb, a, kids, hbody, hk, hsh, hm, hdur⟩ := hx
  rw [hbody] at hsh hm hdur
  obtain ⟨r, h1, _, v, v', h3, h4, h5⟩ :=
    C37_everything_moves_partial rd hrd x.doc.base hb d x.avail hd hdm hd1 a kids hk hsh hm hdur
  obtain ⟨r', w, w', g1, g3, g4, g5⟩ :=
    C37_shown_later_partial rd hrd x.doc.base hb d x.avail hd hdm hd1 a kids hk hsh hm hdur
  have hr : r' = r := by rw [h1] at g1; exact (Option.some.inj g1).symm
  rw [hr] at g4
  refine ⟨r, by rw [hbody]; exact h1, ?_, ?_⟩
  · obtain ⟨a', kids', he⟩ := retimeDoc_elem h1
    obtain ⟨lab, ks, hv, hvb, hve⟩ := heldAs_times (x := x) (doc := x.doc) (avail := x.before d) hbody
    obtain ⟨lab', ks', hv', hvb', hve'⟩ :=
      heldAs_times (x := x) (doc := { x.doc with sid := out, body := r }) (avail := x.avail) he
    have e1 : v = .elem lab ks := by
      rw [hbody] at hv; unfold Delivery.before at hv; rw [h3] at hv; exact Except.ok.inj hv
    have e2 : v' = .elem lab' ks' := by
      simp only at hv'; rw [h4] at hv'; exact Except.ok.inj hv'
    rw [e1, e2] at h5
    simp only [Doc.comps, List.map_cons, List.cons.injEq] at h5
    have hc := h5.1
    unfold Delivery.near
    have hsw : swap sid out x.doc.sid = out := by rw [swap, if_pos hsid]
    simp only [Seq.Doc.mv, heldAs] at hvb hve hvb' hve' ⊢
    simp only [Seq.Doc.mk.injEq, true_and]
    refine ⟨hsw.symm, ?_, ?_⟩
    · rw [hvb', hvb, hc]
    · rw [hve', hve, hc]
  · intro t
    unfold showsAt Delivery.before
    rw [hbody, g3]
    simp only
    rw [g4]
    exact g5 t

/-! ### The node -/

/-- A retimed delivery. -/
def retimed (rd : Reader) (out : String) (d : Int) (x : Delivery) : TDoc :=
  { x.doc with sid := out, body := (retimeDoc x.doc.base rd d x.doc.body).getD x.doc.body }

/-- The node emits every document of a sequence whose numbers do not repeat. -/
theorem node_emits_all (rd : Reader) (out sid : String) (hne : sid ≠ out) (d : Int) (xs : List Delivery) : ∀ s : TState,
    s.first.getD sid = sid → (∀ x ∈ xs, x.doc.sid = sid) → (xs.map (fun x => x.doc.num)).Nodup →
    (∀ x ∈ xs, x.doc.num ∉ s.seen.get sid) → (∀ x ∈ xs, (retimeDoc x.doc.base rd d x.doc.body).isSome = true) →
    emittedDocs (runT rd out d s (xs.map (fun x => .doc x.doc))).2 = xs.map (retimed rd out d) := by
  induction xs with
  | nil => intro s _ _ _ _ _; rfl
  | cons x xs ih =>
    intro s hf hs hn hseen hr
    have hsid := hs x (by simp)
    obtain ⟨body, hbody⟩ := Option.isSome_iff_exists.1 (hr x (by simp))
    simp only [List.map_cons, List.nodup_cons] at hn
    have hnew : x.doc.num ∉ s.seen.get x.doc.sid := by rw [hsid]; exact hseen x (by simp)
    have hstep : retimeNode rd out d s (.doc x.doc) =
        ({ seen := s.seen.push x.doc.sid x.doc.num, first := some x.doc.sid }, .emitted (.doc (retimed rd out d x))) := by
      unfold retimeNode
      simp only [checkSeen, if_neg hnew, if_true]
      rw [if_neg (by rw [hsid]; exact hne), if_neg (by rw [hsid, hf]; simp), hbody]
      simp only [retimed, hbody, Option.getD_some]
    rw [List.map_cons, runT]
    simp only
    rw [hstep]
    simp only [emittedDocs, List.map_cons, List.cons.injEq, true_and]
    refine ih _ (by simp [hsid]) (fun y hy => hs y (List.mem_cons_of_mem _ hy)) hn.2 ?_ (fun y hy => hr y (List.mem_cons_of_mem _ hy))
    intro y hy
    rw [Seen.get_push]
    simp only [hsid, if_true]
    intro hmem
    have hmem' := List.mem_of_mem_drop hmem
    simp only [List.mem_append, List.mem_singleton] at hmem'
    rcases hmem' with h | h
    · exact hseen y (List.mem_cons_of_mem _ hy) h
    · exact hn.1 (by rw [← h]; exact List.mem_map.2 ⟨y, hy, rfl⟩)

end Verif.Node
